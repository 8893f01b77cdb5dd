/-
Lemmas about `optimize` with its memo and with shared metadata: it does the same as `opt` on trees in which
no dequantization is above an overview or a leaf that has overviews.
-/
import Verif.Heap
import Verif.Halt

namespace Verif
namespace Tree

open Helpers Node

/-! #### forgetting the dictionaries -/

mutual
/-- The tree without the numbers of the dictionaries. -/
def erase : Obj → Node
  | .leaf l => .leaf l
  | .concat ps d => .concat (eraseL ps) d
  | .warp s tf d a => .warp (erase s) tf d a
  | .crop s y0 y1 x0 x1 c => .crop (erase s) y0 y1 x0 x1 c
  | .overview s k d => .overview (erase s) k d
  | .dequant s q d => .dequant (erase s) q.1 d
def eraseL : List Obj → List Node
  | [] => []
  | p :: ps => erase p :: eraseL ps
end

theorem eraseL_eq (ps : List Obj) : eraseL ps = ps.map erase := by
  induction ps with
  | nil => rfl
  | cons p ps ih => rw [eraseL, ih]; rfl

@[simp] theorem dsize_erase (n : Obj) : (erase n).dsize = n.dsize := by
  cases n <;> rfl

mutual
theorem nchan_erase : ∀ n : Obj, (erase n).nchan = n.nchan
  | .leaf _ => rfl
  | .concat ps _ => by simp only [erase, nchan]; exact nchans_erase ps
  | .warp s _ _ _ => by simp only [erase, nchan]; exact nchan_erase s
  | .crop s _ _ _ _ c => by
    cases c with
    | none => simp only [erase, nchan]; exact nchan_erase s
    | some c => simp only [erase, nchan]
  | .overview s _ _ => by simp only [erase, nchan]; exact nchan_erase s
  | .dequant s _ _ => by simp only [erase, nchan]; exact nchan_erase s
theorem nchans_erase : ∀ ps : List Obj, nchans (eraseL ps) = nchans ps
  | [] => rfl
  | p :: ps => by simp only [eraseL, nchans, nchan_erase p, nchans_erase ps]
end

mutual
theorem channels_erase : ∀ n : Obj, (erase n).channels = n.channels
  | .leaf _ => rfl
  | .concat ps _ => by simp only [erase, channels]; exact channelsL_erase ps
  | .warp s _ _ _ => by simp only [erase, channels]; exact channels_erase s
  | .crop s _ _ _ _ c => by
    cases c with
    | none => simp only [erase, channels]; exact channels_erase s
    | some c => simp only [erase, channels, channels_erase s]
  | .overview s _ _ => by simp only [erase, channels]; exact channels_erase s
  | .dequant s _ _ => by simp only [erase, channels]; exact channels_erase s
theorem channelsL_erase : ∀ ps : List Obj, channelsL (eraseL ps) = channelsL ps
  | [] => rfl
  | p :: ps => by simp only [eraseL, channelsL, channels_erase p, channelsL_erase ps]
end

mutual
theorem numOverviews_erase : ∀ n : Obj, (erase n).numOverviews = n.numOverviews
  | .leaf _ => rfl
  | .concat ps _ => by simp only [erase, numOverviews, numOverviewsL_erase ps]
  | .warp s _ _ _ => by simp only [erase, numOverviews]; exact numOverviews_erase s
  | .crop s _ _ _ _ c => by simp only [erase, numOverviews]; exact numOverviews_erase s
  | .overview s _ _ => by simp only [erase, numOverviews, numOverviews_erase s]
  | .dequant s _ _ => by simp only [erase, numOverviews]; exact numOverviews_erase s
theorem numOverviewsL_erase : ∀ ps : List Obj, numOverviewsL (eraseL ps) = numOverviewsL ps
  | [] => rfl
  | p :: ps => by simp only [eraseL, numOverviewsL, numOverviews_erase p, numOverviewsL_erase ps]
end

theorem mkConcat_erase (ps : List Obj) : mkConcat (eraseL ps) = (mkConcat ps).map erase := by
  cases ps with
  | nil => rfl
  | cons p ps =>
    have : (eraseL ps).all (fun q => decide (q.dsize = (erase p).dsize)) =
        ps.all (fun q => decide (q.dsize = p.dsize)) := by
      rw [eraseL_eq, List.all_map]
      congr 1
      funext q
      simp
    simp only [eraseL, mkConcat, this]
    split
    · simp [Except.map, erase, eraseL]
    · rfl

theorem mkCrop_erase (s : Obj) (sl : Option Space) (c : Option (List Nat)) :
    mkCrop (erase s) sl c = (mkCrop s sl c).map erase := by
  unfold mkCrop chanCheck
  rw [channels_erase, dsize_erase]
  split
  · rfl
  · cases sl <;> rfl

theorem mkOverview_erase (s : Obj) (k : Int) : mkOverview (erase s) k = erase (mkOverview s k) := by
  simp [mkOverview, erase]

theorem mkWarp_erase (s : Obj) (tf : Affine) (d : Option (Int × Int)) (a : Algo) :
    mkWarp (erase s) tf d a = erase (mkWarp s tf d a) := by
  simp [mkWarp, erase]

theorem paddedCrop_erase (s : Obj) (y0 y1 x0 x1 : Int) (pad : (Int × Int) × (Int × Int)) :
    paddedCrop (erase s) y0 y1 x0 x1 pad = (paddedCrop s y0 y1 x0 x1 pad).map erase := by
  unfold paddedCrop
  rw [dsize_erase]
  cases embedSlice y0 y1 s.dsize.2 pad.1.1 pad.1.2 with
  | error e => rfl
  | ok y =>
    dsimp only
    cases embedSlice x0 x1 s.dsize.1 pad.2.1 pad.2.2 with
    | error e => rfl
    | ok x =>
      dsimp only
      rw [mkCrop_erase]
      cases mkCrop s (ints y.1.1 y.1.2 x.1.1 x.1.2) none with
      | error e => rfl
      | ok new =>
        simp only [Except.map]
        split
        · simp [mkWarp_erase]
        · rfl

theorem takersQ_eq {Q : Type} (ps : List (Node Q)) : takers ps = ps.map (fun p => (p, takeIdx p)) := by
  induction ps with
  | nil => rfl
  | cons p ps ih => rw [takers, ih]; rfl

theorem mapAll_map {α β γ : Type} {f : α → Py β} {g : α → Py γ} {h : β → γ} :
    ∀ {l : List α}, (∀ x ∈ l, g x = (f x).map h) → mapAll g l = (mapAll f l).map (List.map h)
  | [], _ => rfl
  | x :: xs, hx => by
    unfold mapAll
    rw [hx x (by simp), mapAll_map (l := xs) fun y hy => hx y (by simp [hy])]
    cases f x with
    | error e => rfl
    | ok y => cases mapAll f xs <;> rfl

theorem concatTake_erase {ps : List Obj} {d : Int × Int}
    (hT : ∀ p ∈ ps, ∀ idxs, takeIdx (erase p) idxs = (takeIdx p idxs).map erase)
    (reqs : List (Option Nat × Option Str)) :
    concatTake d (takers (eraseL ps)) reqs = (concatTake d (takers ps) reqs).map erase := by
  have hsz : (takers (eraseL ps)).map (fun p => p.1.nchan) = (takers ps).map (fun p => p.1.nchan) := by
    simp only [takersQ_eq, eraseL_eq, List.map_map]
    congr 1
    funext p
    exact nchan_erase p
  have hsub : ∀ s : Seg, Seg.sub d (takers (eraseL ps)) s = (Seg.sub d (takers ps) s).map erase := by
    intro s
    unfold Seg.sub
    split
    · rfl
    · rename_i o _
      rw [takersQ_eq, takersQ_eq, eraseL_eq, List.map_map, List.getElem?_map, List.getElem?_map]
      cases hp : ps[o]? with
      | none => rfl
      | some p =>
        simp only [Option.map_some, Function.comp, nchan_erase]
        split
        · rfl
        · rfl
        · exact hT p (List.mem_of_getElem? hp) _
  unfold concatTake
  rw [hsz]
  split
  · rfl
  · rename_i segs _
    rw [mapAll_map (h := erase) (f := Seg.sub d (takers ps)) fun s _ => hsub s]
    cases mapAll (Seg.sub d (takers ps)) segs with
    | error e => rfl
    | ok comps =>
      simp only [Except.map]
      have := mkConcat_erase comps
      rw [eraseL_eq] at this
      exact this

mutual
theorem takeIdx_erase : ∀ (n : Obj) (idxs : List Nat), takeIdx (erase n) idxs = (takeIdx n idxs).map erase
  | .leaf l, idxs => by rw [takeIdx, erase, takeIdx]; exact mkCrop_erase (.leaf l) _ _
  | .warp s tf d a, idxs => by rw [takeIdx, erase, takeIdx]; exact mkCrop_erase (.warp s tf d a) _ _
  | .crop s y0 y1 x0 x1 c, idxs => by
    rw [takeIdx, erase, takeIdx]; exact mkCrop_erase (.crop s y0 y1 x0 x1 c) _ _
  | .overview s k d, idxs => by rw [takeIdx, erase, takeIdx]; exact mkCrop_erase (.overview s k d) _ _
  | .dequant s q d, idxs => by rw [takeIdx, erase, takeIdx]; exact mkCrop_erase (.dequant s q d) _ _
  | .concat ps d, idxs => by
    rw [takeIdx, erase, takeIdx, channelsL_erase]
    split
    · rfl
    · exact concatTake_erase (takeIdx_eraseL ps) _
theorem takeIdx_eraseL : ∀ (ps : List Obj), ∀ p ∈ ps, ∀ idxs : List Nat,
    takeIdx (erase p) idxs = (takeIdx p idxs).map erase
  | [], p, hp, _ => by simp at hp
  | q :: qs, p, hp, idxs => by
    rcases List.mem_cons.1 hp with e | hp
    · rw [e]; exact takeIdx_erase q idxs
    · exact takeIdx_eraseL qs p hp idxs
end

theorem subOf_erase (n : Obj) : subOf (erase n) = (subOf n).map (Option.map erase) := by
  cases n <;> rfl

theorem setSub_erase (n s : Obj) : setSub (erase n) (erase s) = erase (setSub n s) := by
  cases n <;> rfl

/-- A link without the number of its dictionary. -/
def Link.erase : Link (Quantization × Cell) → Link
  | .deq q d => .deq q.1 d
  | .crop y0 y1 x0 x1 c => .crop y0 y1 x0 x1 c

theorem look_erase : ∀ (k : Nat) (n : Obj), look k (Tree.erase n) =
    (look k n).map (fun r => (r.1.map Link.erase, Tree.erase r.2.1, r.2.2))
  | 0, _ => rfl
  | k + 1, .leaf _ => rfl
  | k + 1, .concat _ _ => rfl
  | k + 1, .warp _ _ _ _ => rfl
  | k + 1, .overview _ _ _ => rfl
  | k + 1, .dequant s q d => by
    rw [Tree.erase, look, look, look_erase k s]
    cases look k s <;> rfl
  | k + 1, .crop s y0 y1 x0 x1 c => by
    rw [Tree.erase, look, look, look_erase k s]
    cases look k s <;> rfl

theorem warpAfterCrop_erase (s : Obj) (tf : Affine) (y0 y1 x0 x1 : Int) (c : Option (List Nat)) :
    warpAfterCrop (erase s) tf y0 y1 x0 x1 c =
      (warpAfterCrop s tf y0 y1 x0 x1 c).map (Option.map fun r => (erase r.1, r.2)) := by
  unfold warpAfterCrop
  rw [dsize_erase]
  split
  · rfl
  · dsimp only
    rw [mkCrop_erase]
    cases mkCrop s (ints (innerSlice s.dsize tf y0 y1 x0 x1).1.1
      (innerSlice s.dsize tf y0 y1 x0 x1).1.2.1 (innerSlice s.dsize tf y0 y1 x0 x1).1.2.2.1
      (innerSlice s.dsize tf y0 y1 x0 x1).1.2.2.2) c <;> rfl

theorem relink_erase : ∀ (ls : List (Link (Quantization × Cell))) (n : Obj),
    relink (ls.map Link.erase) (erase n) = (relink ls n).map erase
  | [], _ => rfl
  | .deq q d :: ls, n => by
    simp only [List.map_cons, Link.erase, relink, relink_erase ls n]
    cases relink ls n with
    | error e => rfl
    | ok m => simp [Except.map, erase]
  | .crop .. :: _, _ => rfl

theorem isCrop_erase (l : Link (Quantization × Cell)) : (Link.erase l).isCrop = l.isCrop := by
  cases l <;> rfl

theorem absorb_erase (H : Heur) (s : Obj) (tf : Affine) (d : Int × Int) (a : Algo) :
    absorb H (erase s) tf d a = (absorb H s tf d a).map erase := by
  unfold absorb
  split
  · rfl
  · rw [look_erase]
    cases look 4 s with
    | none => rfl
    | some r =>
      obtain ⟨chain, osub, k, dk⟩ := r
      have hl : ((chain.map Link.erase).filter Link.isCrop).length = (chain.filter Link.isCrop).length := by
        rw [List.filter_map, List.length_map]
        congr 2
        funext l
        exact isCrop_erase l
      simp only [Option.map_some, hl]
      split
      · rfl
      · rw [List.getLast?_map]
        cases hlast : chain.getLast? with
        | none =>
          simp only [Option.map_none, relink_erase]
          cases relink chain osub <;> rfl
        | some l =>
          cases l with
          | deq q dq =>
            simp only [Option.map_some, Link.erase, relink_erase]
            cases relink chain osub <;> rfl
          | crop y0 y1 x0 x1 c =>
            simp only [Option.map_some, Link.erase, warpAfterCrop_erase]
            cases warpAfterCrop osub (ovScale k) y0 y1 x0 x1 c with
            | error e => rfl
            | ok o =>
              cases o with
              | none => rfl
              | some w =>
                simp only [Except.map, Option.map_some, ← List.map_dropLast, relink_erase]
                cases relink chain.dropLast w.1 <;> rfl

theorem fuseCrops_erase (s : Obj) (iy0 iy1 ix0 ix1 : Int) (ic : Option (List Nat)) (y0 y1 x0 x1 : Int)
    (c : Option (List Nat)) : fuseCrops (erase s) iy0 iy1 ix0 ix1 ic y0 y1 x0 x1 c =
      (fuseCrops s iy0 iy1 ix0 ix1 ic y0 y1 x0 x1 c).map erase := by
  unfold fuseCrops
  split
  · rfl
  · exact mkCrop_erase _ _ _

theorem nanCrop_erase (l : Leaf) (y0 y1 x0 x1 : Int) (c : Option (List Nat)) :
    nanCrop l y0 y1 x0 x1 c = (nanCrop l y0 y1 x0 x1 c : Py Obj).map erase := by
  unfold nanCrop
  split
  · rfl
  · cases embedSlice y0 y1 l.dsize.2 0 0 with
    | error e => rfl
    | ok y =>
      dsimp only
      cases embedSlice x0 x1 l.dsize.1 0 0 <;> rfl

theorem cropAfterOverview_erase (H : Heur) (s : Obj) (y0 y1 x0 x1 : Int) (c : Option (List Nat)) (k : Int) :
    cropAfterOverview H (erase s) y0 y1 x0 x1 c k = (cropAfterOverview H s y0 y1 x0 x1 c k).map erase := by
  unfold cropAfterOverview
  dsimp only
  rw [mkOverview_erase, mkCrop_erase]
  cases mkCrop (mkOverview s k) _ c with
  | error e => rfl
  | ok cr =>
    simp only [Except.map]
    split
    · rfl
    · simp [mkWarp_erase]

theorem warpAfterOverview_erase (s : Obj) (tf : Affine) (k : Int) :
    warpAfterOverview (erase s) tf k = erase (warpAfterOverview s tf k) := by
  rw [warpAfterOverview, warpAfterOverview, mkOverview_erase, mkWarp_erase]

/-! #### trees without dequantizations above overviews -/

mutual
/-- No path has a dequantization (`qa`: counting the nodes above the tree) and an overview, and the sizes
of the dequantizations are those in the store. -/
def Ap (σ : List (Int × Int)) : Bool → Bool → Obj → Prop
  | qa, _, .leaf l => qa = true → l.overviews = none ∨ l.overviews = some 0
  | qa, oa, .concat ps _ => ApL σ qa oa ps
  | qa, oa, .warp s _ _ _ => Ap σ qa oa s
  | qa, oa, .crop s _ _ _ _ _ => Ap σ qa oa s
  | qa, _, .overview s _ _ => qa = false ∧ Ap σ qa true s
  | _, oa, .dequant s q d => oa = false ∧ σ[q.2]? = some d ∧ Ap σ true oa s
def ApL (σ : List (Int × Int)) : Bool → Bool → List Obj → Prop
  | _, _, [] => True
  | qa, oa, p :: ps => Ap σ qa oa p ∧ ApL σ qa oa ps
end

variable {σ σ' : List (Int × Int)} {qa oa : Bool}

theorem ApL_iff : ∀ ps : List Obj, ApL σ qa oa ps ↔ ∀ p ∈ ps, Ap σ qa oa p
  | [] => by simp [ApL]
  | p :: ps => by simp [ApL, ApL_iff ps]

theorem getElem?_ext {α : Type} {l m : List α} (h : l <+: m) {i : Nat} {x : α} (hx : l[i]? = some x) :
    m[i]? = some x := by
  obtain ⟨t, rfl⟩ := h
  rw [List.getElem?_append_left, hx]
  exact (List.getElem?_eq_some_iff.1 hx).1

mutual
theorem Ap.ext (h : σ <+: σ') : ∀ {qa oa : Bool} (n : Obj), Ap σ qa oa n → Ap σ' qa oa n
  | _, _, .leaf _, hn => hn
  | _, _, .concat ps _, hn => ApL.ext h ps hn
  | _, _, .warp s _ _ _, hn => Ap.ext h s hn
  | _, _, .crop s _ _ _ _ _, hn => Ap.ext h s hn
  | _, _, .overview s _ _, hn => ⟨hn.1, Ap.ext h s hn.2⟩
  | _, _, .dequant s _ _, hn => ⟨hn.1, getElem?_ext h hn.2.1, Ap.ext h s hn.2.2⟩
theorem ApL.ext (h : σ <+: σ') : ∀ {qa oa : Bool} (ps : List Obj), ApL σ qa oa ps → ApL σ' qa oa ps
  | _, _, [], hn => hn
  | _, _, p :: ps, hn => ⟨Ap.ext h p hn.1, ApL.ext h ps hn.2⟩
end

mutual
/-- Being below fewer operations. -/
theorem Ap.under : ∀ {qa qa' oa oa' : Bool} (n : Obj), (qa' = true → qa = true) → (oa' = true → oa = true) →
    Ap σ qa oa n → Ap σ qa' oa' n
  | _, _, _, _, .leaf _, h1, _, hn => fun h => hn (h1 h)
  | _, _, _, _, .concat ps _, h1, h2, hn => ApL.under ps h1 h2 hn
  | _, _, _, _, .warp s _ _ _, h1, h2, hn => Ap.under s h1 h2 hn
  | _, _, _, _, .crop s _ _ _ _ _, h1, h2, hn => Ap.under s h1 h2 hn
  | qa, qa', _, _, .overview s _ _, h1, _, hn => by
    refine ⟨?_, Ap.under s h1 (fun h => h) hn.2⟩
    cases qa' with
    | false => rfl
    | true => have := h1 rfl; rw [hn.1] at this; cases this
  | _, _, oa, oa', .dequant s _ _, _, h2, hn => by
    refine ⟨?_, hn.2.1, Ap.under s (fun h => h) h2 hn.2.2⟩
    cases oa' with
    | false => rfl
    | true => have := h2 rfl; rw [hn.1] at this; cases this
theorem ApL.under : ∀ {qa qa' oa oa' : Bool} (ps : List Obj), (qa' = true → qa = true) →
    (oa' = true → oa = true) → ApL σ qa oa ps → ApL σ qa' oa' ps
  | _, _, _, _, [], _, _, _ => trivial
  | _, _, _, _, p :: ps, h1, h2, hn => ⟨Ap.under p h1 h2 hn.1, ApL.under ps h1 h2 hn.2⟩
end

mutual
theorem Ap.refresh : ∀ {qa oa : Bool} (n : Obj), Ap σ qa oa n → refresh σ n = n
  | _, _, .leaf _, _ => rfl
  | _, _, .concat ps _, hn => by rw [Tree.refresh, ApL.refresh ps hn]
  | _, _, .warp s _ _ _, hn => by rw [Tree.refresh, Ap.refresh s hn]
  | _, _, .crop s _ _ _ _ _, hn => by rw [Tree.refresh, Ap.refresh s hn]
  | _, _, .overview s _ _, hn => by rw [Tree.refresh, Ap.refresh s hn.2]
  | _, _, .dequant s q d, hn => by
    rw [Tree.refresh, Ap.refresh s hn.2.2, List.getD_eq_getElem?_getD, hn.2.1]; rfl
theorem ApL.refresh : ∀ {qa oa : Bool} (ps : List Obj), ApL σ qa oa ps → refreshL σ ps = ps
  | _, _, [], _ => rfl
  | _, _, p :: ps, hn => by rw [refreshL, Ap.refresh p hn.1, ApL.refresh ps hn.2]
end

mutual
/-- Trees with the same dictionaries have the same sizes. -/
theorem Ap.bare_inj : ∀ {qa oa qa' oa' : Bool} (n m : Obj), Ap σ qa oa n → Ap σ qa' oa' m →
    bare n = bare m → n = m
  | _, _, _, _, .leaf _, m, _, _, h => by cases m <;> simp_all [bare]
  | _, _, _, _, .concat ps _, m, hn, hm, h => by
    cases m <;> simp [bare] at h
    rename_i ps' d'
    rw [ApL.bare_inj ps ps' hn hm h.1, h.2]
  | _, _, _, _, .warp s _ _ _, m, hn, hm, h => by
    cases m <;> simp [bare] at h
    rename_i s' _ _ _
    rw [Ap.bare_inj s s' hn hm h.1, h.2.1, h.2.2.1, h.2.2.2]
  | _, _, _, _, .crop s _ _ _ _ _, m, hn, hm, h => by
    cases m <;> simp [bare] at h
    rename_i s' _ _ _ _ _
    obtain ⟨h0, h1, h2, h3, h4, h5⟩ := h
    rw [Ap.bare_inj s s' hn hm h0, h1, h2, h3, h4, h5]
  | _, _, _, _, .overview s _ _, m, hn, hm, h => by
    cases m <;> simp [bare] at h
    rename_i s' _ _
    rw [Ap.bare_inj s s' hn.2 hm.2 h.1, h.2.1, h.2.2]
  | _, _, _, _, .dequant s q d, m, hn, hm, h => by
    cases m <;> simp [bare] at h
    rename_i s' q' d'
    obtain ⟨h1, rfl⟩ := h
    have hd : d = d' := by
      have := hn.2.1.symm.trans hm.2.1
      exact Option.some.inj this
    rw [Ap.bare_inj s s' hn.2.2 hm.2.2 h1, hd]
theorem ApL.bare_inj : ∀ {qa oa qa' oa' : Bool} (ps qs : List Obj), ApL σ qa oa ps → ApL σ qa' oa' qs →
    bareL ps = bareL qs → ps = qs
  | _, _, _, _, [], qs, _, _, h => by cases qs <;> simp_all [bareL]
  | _, _, _, _, p :: ps, qs, hp, hq, h => by
    cases qs with
    | nil => simp [bareL] at h
    | cons q qs =>
      simp only [bareL, List.cons.injEq] at h
      rw [Ap.bare_inj p q hp.1 hq.1 h.1, ApL.bare_inj ps qs hp.2 hq.2 h.2]
end

mutual
/-- A source that offers overviews has no dequantization, and none is above it. -/
theorem Ap.overviews : ∀ {qa oa : Bool} (n : Obj) {k : Int}, Ap σ qa oa n →
    n.numOverviews = .ok (some k) → k ≠ 0 → qa = false ∧ Ap σ false true n
  | qa, _, .leaf l, k, hn, hk, h0 => by
    simp only [numOverviews, Except.ok.injEq] at hk
    cases qa with
    | false => exact ⟨rfl, fun h => by cases h⟩
    | true =>
      rcases hn rfl with h | h
      · rw [h] at hk; cases hk
      · rw [h] at hk; cases hk; exact absurd rfl h0
  | qa, oa, .concat ps d, k, hn, hk, h0 => by
    simp only [numOverviews] at hk
    split at hk
    · cases hk
    · cases hk
    · rename_i c cs hcs
      simp only [Except.ok.injEq] at hk
      split at hk
      · rename_i hall
        subst hk
        have := ApL.overviews ps hn hcs h0 (by
          intro c' hc'
          rcases List.mem_cons.1 hc' with e | e
          · exact e
          · exact of_decide_eq_true (List.all_eq_true.1 hall c' e))
        refine ⟨?_, this.2⟩
        cases ps with
        | nil => simp [numOverviewsL] at hcs
        | cons p ps => exact this.1 (by simp)
      · cases hk
  | _, _, .warp s _ _ _, _, hn, hk, h0 => Ap.overviews s hn hk h0
  | _, _, .crop s _ _ _ _ _, _, hn, hk, h0 => Ap.overviews s hn hk h0
  | _, _, .overview s _ _, _, hn, _, _ => ⟨hn.1, rfl, by rw [← hn.1]; exact hn.2⟩
  | _, _, .dequant s _ _, _, hn, hk, h0 => by
    have := Ap.overviews s hn.2.2 hk h0
    cases this.1
theorem ApL.overviews : ∀ {qa oa : Bool} (ps : List Obj) {k : Int} {cs : List (Option Int)}, ApL σ qa oa ps →
    numOverviewsL ps = .ok cs → k ≠ 0 → (∀ c ∈ cs, c = some k) → (ps ≠ [] → qa = false) ∧ ApL σ false true ps
  | _, _, [], _, _, _, _, _, _ => ⟨fun h => absurd rfl h, trivial⟩
  | qa, oa, p :: ps, k, cs, hn, hk, h0, hc => by
    simp only [numOverviewsL] at hk
    split at hk
    · cases hk
    · rename_i c hcp
      split at hk
      · cases hk
      · rename_i cs' hcs
        cases hk
        have hc1 := hc c (by simp)
        subst hc1
        have h1 := Ap.overviews p hn.1 hcp h0
        have h2 := ApL.overviews ps hn.2 hcs h0 fun c' hc' => hc c' (by simp [hc'])
        exact ⟨fun _ => h1.1, h1.2, h2.2⟩
end

mutual
theorem Ap.mix : ∀ {qa oa qa' oa' : Bool} (n : Obj), Ap σ qa oa n → Ap σ' qa' oa' n → Ap σ qa' oa' n
  | _, _, _, _, .leaf _, _, h => h
  | _, _, _, _, .concat ps _, hn, h => ApL.mix ps hn h
  | _, _, _, _, .warp s _ _ _, hn, h => Ap.mix s hn h
  | _, _, _, _, .crop s _ _ _ _ _, hn, h => Ap.mix s hn h
  | _, _, _, _, .overview s _ _, hn, h => ⟨h.1, Ap.mix s hn.2 h.2⟩
  | _, _, _, _, .dequant s _ _, hn, h => ⟨h.1, hn.2.1, Ap.mix s hn.2.2 h.2.2⟩
theorem ApL.mix : ∀ {qa oa qa' oa' : Bool} (ps : List Obj), ApL σ qa oa ps → ApL σ' qa' oa' ps →
    ApL σ qa' oa' ps
  | _, _, _, _, [], _, _ => trivial
  | _, _, _, _, p :: ps, hn, h => ⟨Ap.mix p hn.1 h.1, ApL.mix ps hn.2 h.2⟩
end

/-! #### the constructors -/

theorem mkCrop_shape {s r : Obj} {sl : Option Space} {c : Option (List Nat)} (h : mkCrop s sl c = .ok r) :
    ∃ y0 y1 x0 x1, r = .crop s y0 y1 x0 x1 c := by
  unfold mkCrop at h
  split at h
  · cases h
  · split at h
    · cases h; exact ⟨_, _, _, _, rfl⟩
    · cases h; exact ⟨_, _, _, _, rfl⟩

theorem Ap.mkCrop {s r : Obj} {sl : Option Space} {c : Option (List Nat)} (hs : Ap σ qa oa s)
    (h : mkCrop s sl c = .ok r) : Ap σ qa oa r := by
  obtain ⟨_, _, _, _, rfl⟩ := mkCrop_shape h
  exact hs

theorem Ap.mkConcat {ps : List Obj} {r : Obj} (hs : ApL σ qa oa ps) (h : mkConcat ps = .ok r) :
    Ap σ qa oa r := by
  unfold Tree.mkConcat at h
  split at h
  · cases h
  · split at h
    · cases h; exact hs
    · cases h

theorem Ap.nanLeaf (kind : Nat) (d : Int × Int) (names : Option (List Str)) : Ap σ qa oa (nanLeaf kind d names) :=
  fun _ => .inl rfl

theorem Ap.paddedCrop {s r : Obj} {y0 y1 x0 x1 : Int} {pad : (Int × Int) × (Int × Int)}
    (hs : Ap σ qa oa s) (h : paddedCrop s y0 y1 x0 x1 pad = .ok r) : Ap σ qa oa r := by
  unfold Tree.paddedCrop at h
  split at h
  · cases h
  · split at h
    · cases h
    · split at h
      · cases h
      · rename_i new hnew
        have hn := hs.mkCrop hnew
        simp only at h
        split at h
        · cases h; exact hn
        · cases h; exact hn

theorem mapAll_mem {α β : Type} {f : α → Py β} : ∀ {xs : List α} {ys : List β}, mapAll f xs = .ok ys →
    ∀ y ∈ ys, ∃ x ∈ xs, f x = .ok y
  | [], ys, h, y, hy => by cases h; simp at hy
  | x :: xs, ys, h, y, hy => by
    unfold mapAll at h
    split at h
    · cases h
    · rename_i y' hy'
      split at h
      · cases h
      · rename_i ys' hys
        cases h
        rcases List.mem_cons.1 hy with e | hy
        · exact ⟨x, by simp, by rw [e]; exact hy'⟩
        · obtain ⟨x', hx', e⟩ := mapAll_mem hys y hy
          exact ⟨x', by simp [hx'], e⟩

mutual
theorem Ap.take : ∀ {qa oa : Bool} (n : Obj), Ap σ qa oa n → ∀ {idxs r}, takeIdx n idxs = .ok r → Ap σ qa oa r
  | _, _, .leaf l, hn, _, _, h => by rw [takeIdx] at h; exact hn.mkCrop h
  | _, _, .warp s tf d a, hn, _, _, h => by rw [takeIdx] at h; exact hn.mkCrop h
  | _, _, .crop s y0 y1 x0 x1 c, hn, _, _, h => by rw [takeIdx] at h; exact hn.mkCrop h
  | _, _, .overview s k d, hn, _, _, h => by rw [takeIdx] at h; exact hn.mkCrop h
  | _, _, .dequant s q d, hn, _, _, h => by rw [takeIdx] at h; exact hn.mkCrop h
  | qa, oa, .concat ps d, hn, idxs, r, h => by
    rw [takeIdx] at h
    split at h
    · cases h
    · unfold concatTake at h
      split at h
      · cases h
      · split at h
        · cases h
        · rename_i segs _ comps hcomps
          refine Ap.mkConcat ((ApL_iff _).2 fun q hq => ?_) h
          obtain ⟨sg, _, hsub⟩ := mapAll_mem hcomps q hq
          unfold Seg.sub at hsub
          split at hsub
          · cases hsub; exact Ap.nanLeaf _ _ _
          · rename_i o _
            rw [takersQ_eq, List.getElem?_map] at hsub
            cases hp : ps[o]? with
            | none => rw [hp] at hsub; simp at hsub
            | some p =>
              have hmem : p ∈ ps := List.mem_of_getElem? hp
              rw [hp] at hsub
              simp only [Option.map_some] at hsub
              split at hsub
              · cases hsub
              · cases hsub; exact (ApL_iff _).1 hn _ hmem
              · exact ApL.take ps hn p hmem hsub
theorem ApL.take : ∀ {qa oa : Bool} (ps : List Obj), ApL σ qa oa ps → ∀ p ∈ ps, ∀ {idxs r},
    takeIdx p idxs = .ok r → Ap σ qa oa r
  | _, _, [], _, p, hp, _, _, _ => by simp at hp
  | _, _, q :: qs, hn, p, hp, _, _, h => by
    rcases List.mem_cons.1 hp with e | hp
    · rw [e] at h; exact Ap.take q hn.1 h
    · exact ApL.take qs hn.2 p hp h
end

theorem Ap.warpAfterCrop {s : Obj} {tf tf' : Affine} {y0 y1 x0 x1 : Int} {c : Option (List Nat)} {r : Obj}
    (hs : Ap σ qa oa s) (h : warpAfterCrop s tf y0 y1 x0 x1 c = .ok (some (r, tf'))) : Ap σ qa oa r := by
  unfold Tree.warpAfterCrop at h
  split at h
  · cases h
  · dsimp only at h
    split at h
    · cases h
    · rename_i inner hi
      cases h
      exact hs.mkCrop hi

/-- The links above an overview are crops. -/
theorem Ap.look : ∀ (k : Nat) {qa oa : Bool} {n : Obj} {chain : List (Link (Quantization × Cell))} {s : Obj}
    {j : Int} {d : Int × Int}, Ap σ qa oa n → look k n = some (chain, s, j, d) →
    (∀ l ∈ chain, l.isCrop = true) ∧ qa = false ∧ Ap σ qa true s
  | 0, _, _, n, _, _, _, _, _, h => by simp [Tree.look] at h
  | k + 1, _, _, .leaf _, _, _, _, _, _, h => by simp [Tree.look] at h
  | k + 1, _, _, .concat _ _, _, _, _, _, _, h => by simp [Tree.look] at h
  | k + 1, _, _, .warp _ _ _ _, _, _, _, _, _, h => by simp [Tree.look] at h
  | k + 1, _, _, .overview s _ _, _, _, _, _, hn, h => by
    simp only [Tree.look, Option.some.injEq, Prod.mk.injEq] at h
    obtain ⟨rfl, rfl, _, _⟩ := h
    exact ⟨by simp, hn.1, hn.2⟩
  | k + 1, _, _, .crop s y0 y1 x0 x1 c, _, _, _, _, hn, h => by
    simp only [Tree.look, Option.map_eq_some_iff] at h
    obtain ⟨⟨ch, s', j', d'⟩, h1, h2⟩ := h
    simp only [Prod.mk.injEq] at h2
    obtain ⟨rfl, rfl, rfl, rfl⟩ := h2
    have := Ap.look k (n := s) hn h1
    exact ⟨by simpa [Link.isCrop] using this.1, this.2⟩
  | k + 1, _, _, .dequant s q dq, _, _, _, _, hn, h => by
    simp only [Tree.look, Option.map_eq_some_iff] at h
    obtain ⟨⟨ch, s', j', d'⟩, h1, _⟩ := h
    have := Ap.look k (n := s) hn.2.2 h1
    cases this.2.1

theorem chainCells_crops : ∀ {ls : List (Link (Quantization × Cell))}, (∀ l ∈ ls, l.isCrop = true) →
    chainCells ls = []
  | [], _ => rfl
  | .deq _ _ :: _, h => by have := h _ List.mem_cons_self; simp [Link.isCrop] at this
  | .crop _ _ _ _ _ :: ls, h => chainCells_crops (ls := ls) fun l hl => h l (List.mem_cons_of_mem _ hl)

/-- Nothing is assigned. -/
theorem Ap.writes {H : Heur} {s : Obj} {tf : Affine} (hs : Ap σ qa oa s) : absorbWrites H s tf = [] := by
  unfold absorbWrites
  split
  · rfl
  · split
    · rfl
    · rename_i chain osub k d hl
      have hc := (hs.look 4 hl).1
      split
      · rfl
      · split
        · split
          · rw [chainCells_crops fun l hl => hc l (List.dropLast_subset _ hl)]; rfl
          · rfl
        · rw [chainCells_crops hc]; rfl

theorem relink_crops {ls : List (Link (Quantization × Cell))} {n r : Obj} (h : ∀ l ∈ ls, l.isCrop = true)
    (hr : relink ls n = .ok r) : r = n := by
  cases ls with
  | nil => cases hr; rfl
  | cons l ls =>
    cases l with
    | deq _ _ => have := h _ List.mem_cons_self; simp [Link.isCrop] at this
    | crop => cases hr

theorem Ap.absorb {H : Heur} {s : Obj} {tf : Affine} {d : Int × Int} {a : Algo} {r : Obj}
    (hs : Ap σ qa oa s) (h : absorb H s tf d a = .ok r) : Ap σ qa oa r := by
  unfold Tree.absorb at h
  split at h
  · cases h; exact hs
  · split at h
    · cases h; exact hs
    · rename_i chain osub k dk hl
      obtain ⟨hc, _, ho⟩ := hs.look 4 hl
      have ho : Ap σ qa oa osub := Ap.under osub (fun h => h) (fun _ => rfl) ho
      split at h
      · cases h; exact hs
      · split at h
        · split at h
          · cases h
          · cases h
          · rename_i inner tf1 hw
            split at h
            · cases h
            · rename_i head hh
              cases h
              rw [relink_crops (fun l hl => hc l (List.dropLast_subset _ hl)) hh]
              change Ap σ qa oa inner
              exact Ap.warpAfterCrop ho hw
        · split at h
          · cases h
          · rename_i head hh
            cases h
            rw [relink_crops hc hh]
            exact ho

theorem Ap.fuseCrops {s r : Obj} {iy0 iy1 ix0 ix1 : Int} {ic : Option (List Nat)} {y0 y1 x0 x1 : Int}
    {c : Option (List Nat)} (hs : Ap σ qa oa s)
    (h : fuseCrops s iy0 iy1 ix0 ix1 ic y0 y1 x0 x1 c = .ok r) : Ap σ qa oa r := by
  unfold Tree.fuseCrops at h
  split at h
  · cases h
  · exact hs.mkCrop h

theorem Ap.nanCrop {l : Leaf} {y0 y1 x0 x1 : Int} {c : Option (List Nat)} {r : Obj}
    (h : nanCrop l y0 y1 x0 x1 c = .ok r) : Ap σ qa oa r := by
  unfold Tree.nanCrop at h
  split at h
  · cases h
  · split at h
    · cases h
    · split at h
      · cases h
      · cases h; exact Ap.nanLeaf _ _ _

theorem Ap.cropAfterOverview {H : Heur} {s r : Obj} {y0 y1 x0 x1 : Int} {c : Option (List Nat)} {k : Int}
    (hq : qa = false) (hs : Ap σ qa true s) (h : cropAfterOverview H s y0 y1 x0 x1 c k = .ok r) :
    Ap σ qa oa r := by
  unfold Tree.cropAfterOverview at h
  dsimp only at h
  have ho : Ap σ qa oa (mkOverview s k) := ⟨hq, hs⟩
  split at h
  · cases h
  · rename_i cr hcr
    have := ho.mkCrop hcr
    split at h
    · cases h; exact this
    · cases h; exact this

/-! #### simulation -/

/-- The entries of the memo are right. -/
def Valid (H : Heur) (st : St) : Prop :=
  ∀ e ∈ st.memo, ∃ x qa oa, bare x = e.1.2 ∧ Ap st.sizes qa oa x ∧
    (∀ qa oa, Ap st.sizes qa oa x → Ap st.sizes qa oa e.2) ∧ lim H (erase x) = .ok (erase e.2)

theorem Valid.ext {H : Heur} {st st' : St} (h : Valid H st) (hs : st.sizes <+: st'.sizes)
    (hm : st'.memo = st.memo) : Valid H st' := by
  intro e he
  rw [hm] at he
  obtain ⟨x, qa, oa, h1, h2, h3, h4⟩ := h e he
  exact ⟨x, qa, oa, h1, Ap.ext hs _ h2, fun qa' oa' hx => Ap.ext hs _ (h3 qa' oa' (Ap.mix _ h2 hx)), h4⟩

/-- A run (`X`: its result and final state) against the results `g` with bounded and `gl` with unbounded
recursion. -/
structure Track (H : Heur) {α β : Type} (V : List (Int × Int) → α → β → Prop) (st : St) (X : Py α × St)
    (g gl : Py β) : Prop where
  ext : st.sizes <+: X.2.sizes
  valid : Valid H X.2
  mono : g = .error .recursion ∨ g = gl
  ok : ∀ a, X.1 = .ok a → ∃ b, gl = .ok b ∧ V X.2.sizes a b
  out : X.1 = .error .recursion → g = .error .recursion
  err : ∀ e, X.1 = .error e → e ≠ .recursion → gl = .error e

variable {H : Heur}

theorem Track.bind {α β α' β' : Type} {V : List (Int × Int) → α → β → Prop}
    {W : List (Int × Int) → α' → β' → Prop} {x : Run α} {k : α → Run α'} {st : St} {g gl : Py β}
    {kg kgl : β → Py β'} (hx : Track H V st (x st) g gl)
    (hk : ∀ a b st', st.sizes <+: st'.sizes → Valid H st' → V st'.sizes a b →
      Track H W st' (k a st') (kg b) (kgl b)) :
    Track H W st (andRun x k st) (andThen g kg) (andThen gl kgl) := by
  cases hX : x st with
  | mk r st' =>
    rw [hX] at hx
    cases r with
    | error e =>
      simp only [andRun, hX]
      refine ⟨hx.ext, hx.valid, ?_, by simp, ?_, ?_⟩
      · rcases hx.mono with h | h
        · left; rw [h]; rfl
        · by_cases he : e = .recursion
          · subst he; left; rw [hx.out rfl]; rfl
          · right; rw [h, hx.err e rfl he]; rfl
      · intro h
        simp only [Except.error.injEq] at h
        subst h
        rw [hx.out rfl]; rfl
      · intro e' h he'
        simp only [Except.error.injEq] at h
        subst h
        rw [hx.err _ rfl he']; rfl
    | ok a =>
      obtain ⟨b, hb, hv⟩ := hx.ok a rfl
      have hs := hk a b st' hx.ext hx.valid hv
      have hgl : andThen gl kgl = kgl b := by rw [hb]; rfl
      have hg : andThen g kg = .error .recursion ∨ andThen g kg = kg b := by
        rcases hx.mono with h | h
        · left; rw [h]; rfl
        · right; rw [h, hb]; rfl
      simp only [andRun, hX]
      refine ⟨hx.ext.trans hs.ext, hs.valid, ?_, ?_, ?_, ?_⟩
      · rcases hg with h | h
        · exact .inl h
        · rw [h, hgl]; exact hs.mono
      · intro a' ha'
        rw [hgl]; exact hs.ok a' ha'
      · intro h
        rcases hg with h' | h'
        · exact h'
        · rw [h']; exact hs.out h
      · intro e h he
        rw [hgl]; exact hs.err e h he

theorem Track.lift {α β : Type} {V : List (Int × Int) → α → β → Prop} {st : St} {x : Py α} {y : Py β}
    (hv : Valid H st) (he : ∀ e, x = .error e → y = .error e)
    (ho : ∀ a, x = .ok a → ∃ b, y = .ok b ∧ V st.sizes a b) : Track H V st (lift x st) y y :=
  ⟨List.prefix_refl _, hv, .inr rfl, ho, fun h => he _ h, fun e h _ => he e h⟩

theorem Track.error {α β : Type} {V : List (Int × Int) → α → β → Prop} {st : St} (e : PyErr)
    (hv : Valid H st) : Track H V st (Tree.lift (.error e : Py α) st) (.error e : Py β) (.error e) :=
  Track.lift hv (fun _ h => by cases h; rfl) (fun _ h => by cases h)

theorem Track.ret {α β : Type} {V : List (Int × Int) → α → β → Prop} {st : St} {a : α} {b : β}
    (hv : Valid H st) (h : V st.sizes a b) : Track H V st (ret a st) (.ok b) (.ok b) :=
  Track.lift (x := .ok a) hv (fun _ h => by cases h) (fun _ h' => by cases h'; exact ⟨b, rfl, h⟩)

/-- A result that is the same tree. -/
def Val (qa oa : Bool) (σ : List (Int × Int)) (a : Obj) (b : Node) : Prop := b = erase a ∧ Ap σ qa oa a

def VList (qa oa : Bool) (σ : List (Int × Int)) (a : List Obj) (b : List Node) : Prop :=
  b = eraseL a ∧ ApL σ qa oa a

def VOpt (qa oa : Bool) (σ : List (Int × Int)) (a : Option Obj) (b : Option Node) : Prop :=
  b = a.map erase ∧ ∀ x, a = some x → Ap σ qa oa x

theorem Track.map {st : St} {x : Py Obj} {y : Py Node} (hv : Valid H st) (hy : y = x.map erase)
    (ho : ∀ a, x = .ok a → Ap st.sizes qa oa a) : Track H (Val qa oa) st (Tree.lift x st) y y := by
  subst hy
  refine Track.lift hv (fun e h => by rw [h]; rfl) (fun a h => ⟨erase a, by rw [h]; rfl, rfl, ho a h⟩)

/-- The recursive calls. -/
def RecTrack (H : Heur) (rec : Obj → Run Obj) (g gl : Node → Py Node) : Prop :=
  ∀ (st : St) (x : Obj) (qa oa : Bool), Valid H st → Ap st.sizes qa oa x →
    Track H (Val qa oa) st (rec x st) (g (erase x)) (gl (erase x))

theorem mapAll_andThen {α β : Type} (f : α → Py β) (x : α) (xs : List α) :
    mapAll f (x :: xs) = andThen (f x) fun y => andThen (mapAll f xs) fun ys => .ok (y :: ys) := by
  simp only [mapAll, andThen]
  cases f x with
  | error e => rfl
  | ok y => cases mapAll f xs <;> rfl

theorem Track.mapRun {f : Obj → Run Obj} {g gl : Node → Py Node} : ∀ {ps : List Obj} {st : St},
    Valid H st → (∀ p ∈ ps, ∀ st' : St, st.sizes <+: st'.sizes → Valid H st' →
      Track H (Val qa oa) st' (f p st') (g (erase p)) (gl (erase p))) →
    Track H (VList qa oa) st (mapRun f ps st) (mapAll g (eraseL ps)) (mapAll gl (eraseL ps))
  | [], st, hv, _ => Track.ret hv ⟨rfl, trivial⟩
  | p :: ps, st, hv, h => by
    rw [eraseL, mapAll_andThen, mapAll_andThen, Tree.mapRun]
    refine Track.bind (h p (by simp) st (List.prefix_refl _) hv) fun a b st1 h1 hv1 hab => ?_
    refine Track.bind (Track.mapRun hv1 fun q hq st' h' hv' => h q (by simp [hq]) st' (h1.trans h') hv')
      fun as bs st2 h2 hv2 habs => ?_
    refine Track.ret hv2 ⟨?_, ?_⟩
    · rw [hab.1, habs.1]; rfl
    · exact ⟨Ap.ext h2 _ hab.2, habs.2⟩

theorem Track.newDequant {st : St} {s : Obj} {q : Quantization × Cell} (hv : Valid H st) (hoa : oa = false)
    (hs : Ap st.sizes true oa s) :
    Track H (Val qa oa) st (newDequant s q st) (.ok (mkDequant (erase s) q.1)) (.ok (mkDequant (erase s) q.1)) := by
  have hp : st.sizes <+: st.sizes ++ [s.dsize] := List.prefix_append _ _
  refine ⟨hp, hv.ext hp rfl, .inr rfl, ?_, ?_, ?_⟩
  · intro a ha
    cases ha
    refine ⟨_, rfl, ?_, hoa, ?_, Ap.ext hp _ hs⟩
    · simp [mkDequant, erase]
    · simp [Tree.newDequant]
  · intro h; cases h
  · intro e h; cases h

theorem Track.reapplyM {op p : Obj} {ps : List Obj} {d : Int × Int} {st : St} (hv : Valid H st)
    (hs : subOf op = .ok (some (.concat ps d))) (hop : Ap st.sizes qa oa op) (hp : p ∈ ps) :
    Track H (Val qa oa) st (reapplyM op p st) (reapply (erase op) (erase p)) (reapply (erase op) (erase p)) := by
  cases op with
  | leaf l => simp [subOf] at hs
  | concat => simp [subOf] at hs
  | warp s tf dw a =>
    simp only [subOf, Except.ok.injEq, Option.some.injEq] at hs
    subst hs
    exact Track.map hv rfl fun a ha => by cases ha; exact (ApL_iff _).1 hop p hp
  | crop s y0 y1 x0 x1 c =>
    simp only [subOf, Except.ok.injEq, Option.some.injEq] at hs
    subst hs
    exact Track.map (x := mkCrop p (ints y0 y1 x0 x1) c) hv (mkCrop_erase p (ints y0 y1 x0 x1) c) fun a ha =>
      Ap.mkCrop ((ApL_iff _).1 hop p hp) ha
  | overview s k dk =>
    simp only [subOf, Except.ok.injEq, Option.some.injEq] at hs
    subst hs
    refine Track.map hv ?_ fun a ha => ?_
    · simp [reapply, erase, mkOverview_erase, Except.map]
    · cases ha; exact ⟨hop.1, (ApL_iff _).1 hop.2 p hp⟩
  | dequant s q dq =>
    simp only [subOf, Except.ok.injEq, Option.some.injEq] at hs
    subst hs
    exact Track.newDequant hv hop.1 ((ApL_iff _).1 hop.2.2 p hp)

/-- What `_opt_push_under_concat` does with the new parts. -/
def joined {Q : Type} (qs : List (Node Q)) : Py (Option (Node Q)) :=
  match mkConcat qs with
  | .ok c => .ok (some c)
  | .error .coordinateCompat => .ok none
  | .error e => .error e

theorem mkConcat_cases {Q : Type} (qs : List (Node Q)) :
    (∃ c, mkConcat qs = .ok c) ∨ mkConcat qs = .error .generic ∨ mkConcat qs = .error .coordinateCompat := by
  cases qs with
  | nil => exact .inr (.inl rfl)
  | cons q qs =>
    simp only [mkConcat]
    by_cases h : (qs.all fun q' => decide (q'.dsize = q.dsize)) = true
    · rw [if_pos h]; exact .inl ⟨_, rfl⟩
    · rw [if_neg h]; exact .inr (.inr rfl)

theorem pushUnder_andThen (op : Node) (ps : List Node) :
    pushUnder op ps = andThen (mapAll (reapply op) ps) joined := by
  unfold pushUnder andThen joined
  cases mapAll (reapply op) ps with
  | error e => rfl
  | ok qs => dsimp only; rcases mkConcat_cases qs with ⟨c, h⟩ | h | h <;> simp only [h]

theorem Track.pushUnderM {op : Obj} {ps : List Obj} {d : Int × Int} {st : St} (hv : Valid H st)
    (hs : subOf op = .ok (some (.concat ps d))) (hop : Ap st.sizes qa oa op) :
    Track H (VOpt qa oa) st (pushUnderM op ps st) (pushUnder (erase op) (eraseL ps))
      (pushUnder (erase op) (eraseL ps)) := by
  rw [pushUnder_andThen, Tree.pushUnderM]
  refine Track.bind (Track.mapRun (qa := qa) (oa := oa) hv fun p hp st' h' hv' =>
    Track.reapplyM hv' hs (Ap.ext h' _ hop) hp) fun qs qs' st' _ hv' hqs => ?_
  obtain ⟨rfl, hqs⟩ := hqs
  have he := mkConcat_erase qs
  rcases mkConcat_cases qs with ⟨c, h⟩ | h | h
  · rw [h] at he
    simp only [joined, he, h, Except.map]
    exact Track.ret hv' ⟨rfl, fun x hx => by cases hx; exact Ap.mkConcat hqs h⟩
  · rw [h] at he
    simp only [joined, he, h, Except.map]
    exact Track.error _ hv'
  · rw [h] at he
    simp only [joined, he, h, Except.map]
    exact Track.ret hv' ⟨rfl, fun x hx => by cases hx⟩

theorem finish_concat (rec : Node → Py Node) {n : Node} {ps : List Node} {d : Int × Int}
    (h : subOf n = .ok (some (.concat ps d))) : finish rec n = andThen (pushUnder n ps) fun o =>
      match o with
      | none => .ok n
      | some p => rec p := by
  unfold finish andThen
  rw [h]
  dsimp only
  cases pushUnder n ps with
  | error e => rfl
  | ok o => cases o <;> rfl

variable {rec : Obj → Run Obj} {g gl : Node → Py Node}

theorem Track.finishM {new : Obj} {st : St} (hr : RecTrack H rec g gl) (hv : Valid H st)
    (hn : Ap st.sizes qa oa new) :
    Track H (Val qa oa) st (finishM rec new st) (finish g (erase new)) (finish gl (erase new)) := by
  cases hs : subOf new with
  | error e =>
    have h' : subOf (erase new) = .error e := by rw [subOf_erase, hs]; rfl
    simp only [Tree.finishM, finish, hs, h']
    exact Track.error _ hv
  | ok o =>
    cases o with
    | none =>
      have h' : subOf (erase new) = .ok none := by rw [subOf_erase, hs]; rfl
      simp only [Tree.finishM, finish, hs, h']
      exact Track.ret hv ⟨rfl, hn⟩
    | some x =>
      have h' : subOf (erase new) = .ok (some (erase x)) := by rw [subOf_erase, hs]; rfl
      cases x with
      | concat ps d =>
        rw [finish_concat g h', finish_concat gl h']
        simp only [Tree.finishM, hs]
        refine Track.bind (Track.pushUnderM hv hs hn) fun o o' st' h1 hv' ho => ?_
        obtain ⟨rfl, ho⟩ := ho
        cases o with
        | none => exact Track.ret hv' ⟨rfl, Ap.ext h1 _ hn⟩
        | some p => exact hr st' p qa oa hv' (ho p rfl)
      | _ =>
        simp only [Tree.finishM, finish, hs, h', erase]
        exact Track.ret hv ⟨rfl, hn⟩

theorem Track.absorbM {s : Obj} {tf : Affine} {d : Int × Int} {a : Algo} {st : St} (hv : Valid H st)
    (hs : Ap st.sizes qa oa s) :
    Track H (Val qa oa) st (absorbM H s tf d a st) (absorb H (erase s) tf d a) (absorb H (erase s) tf d a) := by
  unfold Tree.absorbM
  rw [hs.writes]
  exact Track.map hv (absorb_erase _ _ _ _ _) fun r hr => Ap.absorb hs hr

theorem Track.ownMemo {α β : Type} {V : List (Int × Int) → α → β → Prop} {x : Run α} {st : St} {y yl : Py β}
    (hv : Valid H st) (h : ∀ st' : St, st'.sizes = st.sizes → Valid H st' → Track H V st' (x st') y yl) :
    Track H V st (ownMemo x st) y yl := by
  have h' := h { st with memo := [] } rfl (fun e he => by simp at he)
  unfold Tree.ownMemo
  cases hX : x { st with memo := [] } with
  | mk r st' =>
    rw [hX] at h'
    exact ⟨h'.ext, hv.ext h'.ext rfl, h'.mono, h'.ok, h'.out, h'.err⟩

theorem split_andThen (rec : Node → Py Node) (s : Node) (tf : Affine) (d : Int × Int) (a : Algo) :
    split H rec s tf d a = match s.numOverviews with
      | .error e => .error e
      | .ok none => .ok none
      | .ok (some num) =>
        if num = 0 then .ok none
        else if !H.canSplit tf then .ok none
        else if min num (H.downs tf) = 0 then .ok none
        else if H.closeId (tf * (ovScale (min num (H.downs tf))).inv) then
          if (mkOverview s (min num (H.downs tf))).dsize ≠ d then
            match paddedCrop (mkOverview s (min num (H.downs tf))) 0 d.2 0 d.1 ((0, 0), (0, 0)) with
            | .error e => .error e
            | .ok c => andThen (rec c) fun r => .ok (some r)
          else .ok (some (mkOverview s (min num (H.downs tf))))
        else .ok (some (.warp (mkOverview s (min num (H.downs tf)))
          (tf * (ovScale (min num (H.downs tf))).inv) d a.common)) := by
  unfold split
  cases s.numOverviews with
  | error e => rfl
  | ok o =>
    cases o with
    | none => rfl
    | some num =>
      dsimp only
      split
      · rfl
      · split
        · rfl
        · split
          · rfl
          · split
            · split
              · cases paddedCrop (mkOverview s (min num (H.downs tf))) 0 d.2 0 d.1 ((0, 0), (0, 0)) with
                | error e => rfl
                | ok c => dsimp only; cases rec c <;> rfl
              · rfl
            · rfl

theorem Track.splitM {s : Obj} {tf : Affine} {d : Int × Int} {a : Algo} {st : St} (hr : RecTrack H rec g gl)
    (hv : Valid H st) (hs : Ap st.sizes qa oa s) :
    Track H (VOpt qa oa) st (splitM H rec s tf d a st) (split H g (erase s) tf d a)
      (split H gl (erase s) tf d a) := by
  have hnone : Track H (VOpt qa oa) st (Tree.ret (none : Option Obj) st) (.ok (none : Option Node)) (.ok none) :=
    Track.ret hv ⟨rfl, fun _ h => by cases h⟩
  rw [split_andThen, split_andThen, numOverviews_erase]
  unfold Tree.splitM
  cases ho : s.numOverviews with
  | error e => exact Track.error _ hv
  | ok o =>
    cases o with
    | none => exact hnone
    | some num =>
      dsimp only
      by_cases h0 : num = 0
      · rw [if_pos h0, if_pos h0, if_pos h0]; exact hnone
      rw [if_neg h0, if_neg h0, if_neg h0]
      obtain ⟨hqa, hs'⟩ := hs.overviews s ho h0
      have hov : Ap st.sizes qa oa (mkOverview s (min num (H.downs tf))) := ⟨hqa, by rw [hqa]; exact hs'⟩
      by_cases h1 : (!H.canSplit tf) = true
      · rw [if_pos h1, if_pos h1, if_pos h1]; exact hnone
      rw [if_neg h1, if_neg h1, if_neg h1]
      by_cases h2 : min num (H.downs tf) = 0
      · rw [if_pos h2, if_pos h2, if_pos h2]; exact hnone
      rw [if_neg h2, if_neg h2, if_neg h2, mkOverview_erase]
      generalize mkOverview s (min num (H.downs tf)) = ov at hov
      by_cases h3 : H.closeId (tf * (ovScale (min num (H.downs tf))).inv) = true
      · rw [if_pos h3, if_pos h3, if_pos h3, dsize_erase]
        by_cases h4 : ov.dsize ≠ d
        · rw [if_pos h4, if_pos h4, if_pos h4, paddedCrop_erase]
          cases hc : paddedCrop ov 0 d.2 0 d.1 ((0, 0), (0, 0)) with
          | error e => exact Track.error _ hv
          | ok c =>
            simp only [Except.map]
            refine Track.bind (Track.ownMemo hv fun st' h' hv' => hr st' c qa oa hv' ?_)
              fun r r' st' _ hv' hrr => ?_
            · rw [h']; exact hov.paddedCrop hc
            · obtain ⟨rfl, hrr⟩ := hrr
              exact Track.ret hv' ⟨rfl, fun x hx => by cases hx; exact hrr⟩
        · rw [if_neg h4, if_neg h4, if_neg h4]
          exact Track.ret hv ⟨rfl, fun x hx => by cases hx; exact hov⟩
      · rw [if_neg h3, if_neg h3, if_neg h3]
        exact Track.ret hv ⟨rfl, fun x hx => by cases hx; exact hov⟩

theorem afterSplit_andThen (rec : Node → Py Node) (s : Node) (tf : Affine) (d : Int × Int) (a : Algo)
    (new : Node) : afterSplit H rec s tf d a (some new) = match subOf new with
      | .error e => .error e
      | .ok none => .error .attributeError
      | .ok (some x) => andThen (rec x) fun x' => rec (setSub new x') := by
  unfold afterSplit andThen
  dsimp only
  cases subOf new with
  | error e => rfl
  | ok o =>
    cases o with
    | none => rfl
    | some x => dsimp only; cases rec x <;> rfl

/-- The conditions on the source of an operation. -/
theorem Ap.sub {n x : Obj} (hn : Ap σ qa oa n) (h : subOf n = .ok (some x)) : ∃ qa' oa', Ap σ qa' oa' x ∧
    ∀ {σ' : List (Int × Int)} {x' : Obj}, σ <+: σ' → Ap σ' qa' oa' x' → Ap σ' qa oa (setSub n x') := by
  cases n with
  | leaf => simp [subOf] at h
  | concat => simp [subOf] at h
  | warp s tf d a => cases h; exact ⟨qa, oa, hn, fun _ h => h⟩
  | crop s y0 y1 x0 x1 c => cases h; exact ⟨qa, oa, hn, fun _ h => h⟩
  | overview s k d => cases h; exact ⟨qa, true, hn.2, fun _ h => ⟨hn.1, h⟩⟩
  | dequant s q d => cases h; exact ⟨true, oa, hn.2.2, fun he h => ⟨hn.1, getElem?_ext he hn.2.1, h⟩⟩

theorem Track.afterSplitM {s : Obj} {tf : Affine} {d : Int × Int} {a : Algo} {st : St} {o : Option Obj}
    (hr : RecTrack H rec g gl) (hv : Valid H st) (hs : Ap st.sizes qa oa s)
    (ho : ∀ x, o = some x → Ap st.sizes qa oa x) :
    Track H (Val qa oa) st (afterSplitM H rec s tf d a o st) (afterSplit H g (erase s) tf d a (o.map erase))
      (afterSplit H gl (erase s) tf d a (o.map erase)) := by
  cases o with
  | none => exact Track.absorbM hv hs
  | some new =>
    rw [Option.map_some, afterSplit_andThen, afterSplit_andThen, subOf_erase]
    simp only [Tree.afterSplitM]
    cases hx : subOf new with
    | error e => exact Track.error _ hv
    | ok o =>
      cases o with
      | none => exact Track.error _ hv
      | some x =>
        simp only [Except.map, Option.map_some]
        obtain ⟨qa', oa', h1, h2⟩ := (ho new rfl).sub hx
        refine Track.bind (hr st x qa' oa' hv h1) fun x' y st' he hv' hxy => ?_
        obtain ⟨rfl, hxy⟩ := hxy
        rw [setSub_erase]
        exact hr st' _ qa oa hv' (h2 he hxy)

/-- A `DelayedNans` leaf. -/
def nanAt : Node → Option Leaf
  | .leaf l => if l.nan then some l else none
  | _ => none

theorem nanAt_erase (s : Obj) : nanAt (erase s) = nanOf s := by
  cases s <;> rfl

theorem warpRest_other (H : Heur) (rec : Node → Py Node) {s : Node} (tf : Affine) (d : Int × Int) (a : Algo)
    (hs : ∀ ps e, s ≠ .concat ps e) : warpRest H rec s tf d a =
      if d = s.dsize ∧ H.negl a.noopEps tf = true then .ok s
      else match nanAt s with
        | some l => rec (nanLeaf l.id d l.names)
        | none => andThen (split H rec s tf d a) (afterSplit H rec s tf d a) := by
  rw [warpRest_eq H rec tf d a hs]
  cases s <;> rfl

theorem warpRest_concat (rec : Node → Py Node) (ps : List Node) (dc : Int × Int) (tf : Affine) (d : Int × Int)
    (a : Algo) : warpRest H rec (.concat ps dc) tf d a =
      if d = dc ∧ H.negl a.noopEps tf = true then .ok (.concat ps dc)
      else andThen (pushUnder (.warp (.concat ps dc) tf d a) ps) fun o =>
        match o with
        | none => .ok (.warp (.concat ps dc) tf d a)
        | some p => rec p := by
  unfold warpRest andThen
  by_cases h : d = dc ∧ H.negl a.noopEps tf = true
  · have h' : d = (Node.concat ps dc : Node).dsize ∧ H.negl a.noopEps tf = true := h
    rw [if_pos h', if_pos h]
  · have h' : ¬(d = (Node.concat ps dc : Node).dsize ∧ H.negl a.noopEps tf = true) := h
    rw [if_neg h', if_neg h]
    dsimp only
    cases pushUnder (.warp (.concat ps dc) tf d a) ps with
    | error e => rfl
    | ok o => cases o <;> rfl

theorem Track.warpRestM {s : Obj} {tf : Affine} {d : Int × Int} {a : Algo} {st : St}
    (hr : RecTrack H rec g gl) (hv : Valid H st) (hs : Ap st.sizes qa oa s) :
    Track H (Val qa oa) st (warpRestM H rec s tf d a st) (warpRest H g (erase s) tf d a)
      (warpRest H gl (erase s) tf d a) := by
  by_cases hc : ∃ ps e, s = .concat ps e
  · obtain ⟨ps, e, rfl⟩ := hc
    rw [erase, warpRest_concat, warpRest_concat]
    unfold Tree.warpRestM
    by_cases hno : d = e ∧ H.negl a.noopEps tf = true
    · have h' : d = (Node.concat ps e : Obj).dsize ∧ H.negl a.noopEps tf = true := hno
      rw [if_pos h', if_pos hno, if_pos hno]; exact Track.ret hv ⟨rfl, hs⟩
    · have h' : ¬(d = (Node.concat ps e : Obj).dsize ∧ H.negl a.noopEps tf = true) := hno
      rw [if_neg h', if_neg hno, if_neg hno]
      dsimp only
      have hop : Ap st.sizes qa oa (.warp (.concat ps e) tf d a) := hs
      have hpu := Track.pushUnderM hv rfl hop
      simp only [erase] at hpu
      refine Track.bind hpu fun o o' st' h1 hv' ho => ?_
      obtain ⟨rfl, ho⟩ := ho
      cases o with
      | none => exact Track.ret hv' ⟨rfl, Ap.ext h1 _ hop⟩
      | some p => exact hr st' p qa oa hv' (ho p rfl)
  · have hc' : ∀ ps e, erase s ≠ .concat ps e := by
      intro ps e h
      cases s <;> simp [erase] at h
      exact hc ⟨_, _, rfl⟩
    rw [warpRest_other H g tf d a hc', warpRest_other H gl tf d a hc', nanAt_erase, dsize_erase]
    have hM : Tree.warpRestM H rec s tf d a = if d = s.dsize ∧ H.negl a.noopEps tf = true then Tree.ret s
        else match nanOf s with
          | some l => rec (nanLeaf l.id d l.names)
          | none => andRun (Tree.splitM H rec s tf d a) (Tree.afterSplitM H rec s tf d a) := by
      unfold Tree.warpRestM
      cases s <;> first | rfl | exact absurd ⟨_, _, rfl⟩ hc
    rw [hM]
    by_cases hno : d = s.dsize ∧ H.negl a.noopEps tf = true
    · simp only [if_pos hno]; exact Track.ret hv ⟨rfl, hs⟩
    · simp only [if_neg hno]
      cases nanOf s with
      | some l => exact hr st _ qa oa hv (Ap.nanLeaf _ _ _)
      | none =>
        refine Track.bind (Track.splitM hr hv hs) fun o o' st' h1 hv' ho => ?_
        obtain ⟨rfl, ho⟩ := ho
        exact Track.afterSplitM hr hv' (Ap.ext h1 _ hs) ho

theorem optWarp_andThen (rec : Node → Py Node) (s : Node) (tf : Affine) (d : Int × Int) (a : Algo) :
    optWarp H rec s tf d a = andThen (rec s) fun s' => match s' with
      | .warp s1 tf1 _ _ => warpRest H rec s1 (tf * tf1) d a.common
      | s' => warpRest H rec s' tf d a := by
  unfold optWarp andThen
  cases rec s with
  | error e => rfl
  | ok s' => cases s' <;> rfl

theorem Track.optWarpM {s : Obj} {tf : Affine} {d : Int × Int} {a : Algo} {st : St}
    (hr : RecTrack H rec g gl) (hv : Valid H st) (hs : Ap st.sizes qa oa s) :
    Track H (Val qa oa) st (optWarpM H rec s tf d a st) (optWarp H g (erase s) tf d a)
      (optWarp H gl (erase s) tf d a) := by
  rw [optWarp_andThen, optWarp_andThen, Tree.optWarpM]
  refine Track.bind (hr st s qa oa hv hs) fun s' t st' _ hv' hst => ?_
  obtain ⟨rfl, hst⟩ := hst
  cases s' <;> exact Track.warpRestM hr hv' hst

theorem cropConcat_andThen (rec : Node → Py Node) (ps : List Node) (d : Int × Int) (y0 y1 x0 x1 : Int)
    (c : Option (List Nat)) : cropConcat rec ps d y0 y1 x0 x1 c = andThen (match c with
      | none => .ok (.concat ps d)
      | some c => andThen (takeIdx (.concat ps d) c) rec : Py Node) fun taken =>
        andThen (mkCrop taken (ints y0 y1 x0 x1) none) fun cr =>
        match taken with
        | .concat qs _ => andThen (pushUnder cr qs) fun o =>
          match o with
          | none => rec cr
          | some p => rec p
        | _ => rec cr := by
  unfold cropConcat andThen
  cases c with
  | none =>
    dsimp only
    cases mkCrop (.concat ps d) (ints y0 y1 x0 x1) none with
    | error e => rfl
    | ok cr =>
      dsimp only
      cases pushUnder cr ps with
      | error e => rfl
      | ok o => cases o <;> rfl
  | some c =>
    dsimp only
    cases takeIdx (.concat ps d) c with
    | error e => rfl
    | ok t =>
      dsimp only
      cases rec t with
      | error e => rfl
      | ok taken =>
        dsimp only
        cases mkCrop taken (ints y0 y1 x0 x1) none with
        | error e => rfl
        | ok cr =>
          cases taken <;> try rfl
          rename_i qs _
          dsimp only
          cases pushUnder cr qs with
          | error e => rfl
          | ok o => cases o <;> rfl

theorem Track.cropConcatM {ps : List Obj} {d : Int × Int} {y0 y1 x0 x1 : Int} {c : Option (List Nat)} {st : St}
    (hr : RecTrack H rec g gl) (hv : Valid H st) (hs : ApL st.sizes qa oa ps) :
    Track H (Val qa oa) st (cropConcatM rec ps d y0 y1 x0 x1 c st) (cropConcat g (eraseL ps) d y0 y1 x0 x1 c)
      (cropConcat gl (eraseL ps) d y0 y1 x0 x1 c) := by
  rw [cropConcat_andThen, cropConcat_andThen]
  unfold Tree.cropConcatM
  have hps : Ap st.sizes qa oa (.concat ps d) := hs
  refine Track.bind (V := Val qa oa) ?_ fun taken t st1 _ hv1 ht => ?_
  · cases c with
    | none => exact Track.ret hv ⟨rfl, hps⟩
    | some c =>
      refine Track.bind (V := Val qa oa) (Track.map hv (takeIdx_erase (.concat ps d) c) fun a ha =>
        Ap.take _ hps ha) fun t t' st1 _ hv1 ht => ?_
      obtain ⟨rfl, ht⟩ := ht
      exact hr st1 t qa oa hv1 ht
  · obtain ⟨rfl, ht⟩ := ht
    have hsub : ∀ cr, mkCrop taken (ints y0 y1 x0 x1) none = .ok cr → subOf cr = .ok (some taken) := by
      intro cr h
      obtain ⟨_, _, _, _, rfl⟩ := mkCrop_shape h
      rfl
    refine Track.bind (V := fun σ a b => Val qa oa σ a b ∧ subOf a = .ok (some taken)) ?_
      fun cr cr' st2 h2 hv2 hcr => ?_
    · rw [mkCrop_erase]
      refine Track.lift hv1 (fun e h => by rw [h]; rfl) fun a h => ⟨erase a, by rw [h]; rfl, ⟨rfl, ?_⟩, hsub a h⟩
      exact ht.mkCrop h
    · obtain ⟨⟨rfl, hcr⟩, hsc⟩ := hcr
      cases taken with
      | concat qs dq =>
        refine Track.bind (Track.pushUnderM hv2 hsc hcr) fun o o' st3 h3 hv3 ho => ?_
        obtain ⟨rfl, ho⟩ := ho
        cases o with
        | none => exact hr st3 cr qa oa hv3 (Ap.ext h3 _ hcr)
        | some p => exact hr st3 p qa oa hv3 (ho p rfl)
      | _ => exact hr st2 cr qa oa hv2 hcr

theorem Track.finishCropM {new : Obj} {st : St} (hr : RecTrack H rec g gl) (hv : Valid H st)
    (hn : Ap st.sizes qa oa new) :
    Track H (Val qa oa) st (finishCropM rec new st) (finishCrop g (erase new)) (finishCrop gl (erase new)) := by
  cases new with
  | crop s y0 y1 x0 x1 c =>
    cases s with
    | concat ps d => exact Track.cropConcatM hr hv hn
    | _ => exact Track.finishM hr hv hn
  | _ => exact Track.finishM hr hv hn

theorem cropRest_warp (rec : Node → Py Node) (x : Node) (tf : Affine) (dw : Int × Int) (a : Algo)
    (y0 y1 x0 x1 : Int) (c : Option (List Nat)) (ha : a.interp ≠ .nearest) :
    cropRest rec (.warp x tf dw a) y0 y1 x0 x1 c = andThen (warpAfterCrop x tf y0 y1 x0 x1 c) fun o =>
      match o with
      | none => .ok (.crop (.warp x tf dw a) y0 y1 x0 x1 c)
      | some (inner, tf') => andThen (rec (.warp inner tf' (x1 - x0, y1 - y0) a.common)) (finishCrop rec) := by
  simp only [cropRest, if_neg ha, andThen]
  cases warpAfterCrop x tf y0 y1 x0 x1 c with
  | error e => rfl
  | ok o =>
    cases o with
    | none => rfl
    | some r =>
      obtain ⟨inner, tf'⟩ := r
      dsimp only
      cases rec (.warp inner tf' (x1 - x0, y1 - y0) a.common) <;> rfl

theorem cropRest_dequant (rec : Node → Py Node) (x : Node) (q : Quantization) (d : Int × Int)
    (y0 y1 x0 x1 : Int) (c : Option (List Nat)) :
    cropRest rec (.dequant x q d) y0 y1 x0 x1 c =
      andThen (.ok (mkDequant (.crop x y0 y1 x0 x1 c) q)) fun m => andThen (rec m) (finishCrop rec) := by
  simp only [cropRest, andThen]
  cases rec (mkDequant (.crop x y0 y1 x0 x1 c) q) <;> rfl

theorem Track.cropRestM {s : Obj} {y0 y1 x0 x1 : Int} {c : Option (List Nat)} {st : St}
    (hr : RecTrack H rec g gl) (hv : Valid H st) (hs : Ap st.sizes qa oa s) :
    Track H (Val qa oa) st (cropRestM rec s y0 y1 x0 x1 c st) (cropRest g (erase s) y0 y1 x0 x1 c)
      (cropRest gl (erase s) y0 y1 x0 x1 c) := by
  have hfin := Track.finishCropM (new := .crop s y0 y1 x0 x1 c) hr hv hs
  cases s with
  | warp x tf dw a =>
    by_cases ha : a.interp = .nearest
    · simp only [Tree.cropRestM, erase, cropRest, if_pos ha]
      exact Track.ret hv ⟨rfl, hs⟩
    · simp only [Tree.cropRestM, erase, if_neg ha]
      rw [cropRest_warp g _ _ _ _ _ _ _ _ _ ha, cropRest_warp gl _ _ _ _ _ _ _ _ _ ha, warpAfterCrop_erase]
      refine Track.bind (V := fun σ o o' => o' = o.map (fun r => (erase r.1, r.2)) ∧
        ∀ i t, o = some (i, t) → Ap σ qa oa i) ?_ fun o o' st' h1 hv' ho => ?_
      · refine Track.lift hv (fun e h => by rw [h]; rfl) fun o h => ⟨_, by rw [h]; rfl, rfl, ?_⟩
        intro i t hi
        rw [hi] at h
        exact Ap.warpAfterCrop (s := x) hs h
      · obtain ⟨rfl, ho⟩ := ho
        cases o with
        | none => exact Track.ret hv' ⟨rfl, Ap.ext h1 _ hs⟩
        | some r =>
          obtain ⟨inner, tf'⟩ := r
          have hi : Ap st'.sizes qa oa inner := ho inner tf' rfl
          refine Track.bind (hr st' (.warp inner tf' (x1 - x0, y1 - y0) a.common) qa oa hv' hi)
            fun r r' st'' _ hv'' hrr => ?_
          obtain ⟨rfl, hrr⟩ := hrr
          exact Track.finishCropM hr hv'' hrr
  | dequant x q dq =>
    rw [erase, cropRest_dequant, cropRest_dequant, Tree.cropRestM]
    refine Track.bind (Track.newDequant (qa := qa) hv hs.1 (s := .crop x y0 y1 x0 x1 c) hs.2.2)
      fun m m' st1 _ hv1 hm => ?_
    obtain ⟨rfl, hm⟩ := hm
    refine Track.bind (hr st1 m qa oa hv1 hm) fun r r' st2 _ hv2 hrr => ?_
    obtain ⟨rfl, hrr⟩ := hrr
    exact Track.finishCropM hr hv2 hrr
  | _ => exact hfin

theorem optCrop_andThen (rec : Node → Py Node) (s : Node) (y0 y1 x0 x1 : Int) (c : Option (List Nat)) :
    optCrop rec s y0 y1 x0 x1 c = andThen (rec s) fun s' => andThen (match s' with
      | .crop s1 iy0 iy1 ix0 ix1 ic => fuseCrops s1 iy0 iy1 ix0 ix1 ic y0 y1 x0 x1 c
      | s' => .ok (.crop s' y0 y1 x0 x1 c) : Py Node) fun n =>
      match n with
      | .crop s2 y0' y1' x0' x1' c' =>
        match nanAt s2 with
        | some l => andThen (nanCrop l y0 y1 x0 x1 c) rec
        | none => cropRest rec s2 y0' y1' x0' x1' c'
      | n => .ok n := by
  unfold optCrop andThen
  cases rec s with
  | error e => rfl
  | ok s' =>
    cases s' with
    | crop s1 iy0 iy1 ix0 ix1 ic =>
      dsimp only
      cases fuseCrops s1 iy0 iy1 ix0 ix1 ic y0 y1 x0 x1 c with
      | error e => rfl
      | ok r =>
        cases r <;> try rfl
        rename_i s2 _ _ _ _ _
        cases s2 <;> try rfl
        rename_i l
        dsimp only [nanAt]
        cases l.nan <;> simp only [if_true, Bool.false_eq_true, if_false]
        cases nanCrop l y0 y1 x0 x1 c <;> rfl
    | leaf l =>
      dsimp only [nanAt]
      cases l.nan <;> simp only [if_true, Bool.false_eq_true, if_false]
      cases nanCrop l y0 y1 x0 x1 c <;> rfl
    | _ => rfl

theorem Track.optCropM {s : Obj} {y0 y1 x0 x1 : Int} {c : Option (List Nat)} {st : St}
    (hr : RecTrack H rec g gl) (hv : Valid H st) (hs : Ap st.sizes qa oa s) :
    Track H (Val qa oa) st (optCropM rec s y0 y1 x0 x1 c st) (optCrop g (erase s) y0 y1 x0 x1 c)
      (optCrop gl (erase s) y0 y1 x0 x1 c) := by
  rw [optCrop_andThen, optCrop_andThen, Tree.optCropM]
  refine Track.bind (hr st s qa oa hv hs) fun s' t st1 _ hv1 hst => ?_
  obtain ⟨rfl, hst⟩ := hst
  refine Track.bind (V := Val qa oa) ?_ fun n n' st2 _ hv2 hn => ?_
  · cases s' with
    | crop s1 iy0 iy1 ix0 ix1 ic =>
      exact Track.map hv1 (fuseCrops_erase _ _ _ _ _ _ _ _ _ _ _) fun a ha => Ap.fuseCrops (s := s1) hst ha
    | _ => exact Track.map hv1 rfl fun a ha => by cases ha; exact hst
  · obtain ⟨rfl, hn⟩ := hn
    cases n with
    | crop s2 y0' y1' x0' x1' c' =>
      simp only [erase, nanAt_erase]
      cases nanOf s2 with
      | some l =>
        refine Track.bind (V := Val qa oa) (Track.map hv2 (nanCrop_erase l y0 y1 x0 x1 c) fun a ha =>
          Ap.nanCrop ha) fun a b st3 _ hv3 hab => ?_
        obtain ⟨rfl, hab⟩ := hab
        exact hr st3 a qa oa hv3 hab
      | none => exact Track.cropRestM hr hv2 hn
    | _ => exact Track.ret hv2 ⟨rfl, hn⟩

theorem overviewRest_crop (rec : Node → Py Node) (x : Node) (y0 y1 x0 x1 : Int) (c : Option (List Nat))
    (k : Int) (d : Int × Int) (hk : k ≠ 0) : overviewRest H rec (.crop x y0 y1 x0 x1 c) k d =
      andThen (cropAfterOverview H x y0 y1 x0 x1 c k) fun m => andThen (rec m) (finish rec) := by
  simp only [overviewRest, if_neg hk, andThen]
  cases cropAfterOverview H x y0 y1 x0 x1 c k with
  | error e => rfl
  | ok m => dsimp only; cases rec m <;> rfl

theorem overviewRest_warp (rec : Node → Py Node) (x : Node) (tf : Affine) (dw : Int × Int) (a : Algo)
    (k : Int) (d : Int × Int) (hk : k ≠ 0) : overviewRest H rec (.warp x tf dw a) k d =
      andThen (rec (warpAfterOverview x tf k)) (finish rec) := by
  simp only [overviewRest, if_neg hk, andThen]
  cases rec (warpAfterOverview x tf k) <;> rfl

theorem Track.overviewRestM {s : Obj} {k : Int} {d : Int × Int} {st : St}
    (hr : RecTrack H rec g gl) (hv : Valid H st) (hq : qa = false) (hs : Ap st.sizes qa true s) :
    Track H (Val qa oa) st (overviewRestM H rec s k d st) (overviewRest H g (erase s) k d)
      (overviewRest H gl (erase s) k d) := by
  have hs' : Ap st.sizes qa oa s := Ap.under s (fun h => h) (fun _ => rfl) hs
  by_cases hk : k = 0
  · simp only [Tree.overviewRestM, overviewRest, if_pos hk]
    exact Track.finishM hr hv hs'
  have hfin := Track.finishM (qa := qa) (oa := oa) (new := .overview s k d) hr hv ⟨hq, hs⟩
  cases s with
  | crop x y0 y1 x0 x1 c =>
    rw [erase, overviewRest_crop g _ _ _ _ _ _ _ _ hk, overviewRest_crop gl _ _ _ _ _ _ _ _ hk]
    simp only [Tree.overviewRestM, if_neg hk]
    refine Track.bind (V := Val qa oa) (Track.map hv (cropAfterOverview_erase _ _ _ _ _ _ _ _) fun a ha =>
      Ap.cropAfterOverview (s := x) hq hs ha) fun m m' st1 _ hv1 hm => ?_
    obtain ⟨rfl, hm⟩ := hm
    refine Track.bind (hr st1 m qa oa hv1 hm) fun r r' st2 _ hv2 hrr => ?_
    obtain ⟨rfl, hrr⟩ := hrr
    exact Track.finishM hr hv2 hrr
  | warp x tf dw a =>
    rw [erase, overviewRest_warp g _ _ _ _ _ _ hk, overviewRest_warp gl _ _ _ _ _ _ hk, warpAfterOverview_erase]
    simp only [Tree.overviewRestM, if_neg hk]
    have hw : Ap st.sizes qa oa (warpAfterOverview x tf k) := ⟨hq, hs⟩
    refine Track.bind (hr st _ qa oa hv hw) fun r r' st2 _ hv2 hrr => ?_
    obtain ⟨rfl, hrr⟩ := hrr
    exact Track.finishM hr hv2 hrr
  | dequant x q dq => cases hs.1
  | _ =>
    simp only [Tree.overviewRestM, overviewRest, erase, if_neg hk]
    exact hfin

theorem optOverview_andThen (rec : Node → Py Node) (s : Node) (k : Int) (d : Int × Int) :
    optOverview H rec s k d = andThen (rec s) fun s' => match s' with
      | .overview s1 k1 _ => overviewRest H rec s1 (k1 + k) (mkOverview s1 (k1 + k)).dsize
      | s' => overviewRest H rec s' k d := by
  unfold optOverview andThen
  cases rec s with
  | error e => rfl
  | ok s' => cases s' <;> rfl

theorem Track.optOverviewM {s : Obj} {k : Int} {d : Int × Int} {st : St}
    (hr : RecTrack H rec g gl) (hv : Valid H st) (hq : qa = false) (hs : Ap st.sizes qa true s) :
    Track H (Val qa oa) st (optOverviewM H rec s k d st) (optOverview H g (erase s) k d)
      (optOverview H gl (erase s) k d) := by
  rw [optOverview_andThen, optOverview_andThen, Tree.optOverviewM]
  refine Track.bind (hr st s qa true hv hs) fun s' t st' _ hv' hst => ?_
  obtain ⟨rfl, hst⟩ := hst
  cases s' with
  | overview s1 k1 d1 =>
    have : (mkOverview (erase s1) (k1 + k)).dsize = (mkOverview s1 (k1 + k)).dsize := by
      rw [mkOverview_erase, dsize_erase]
    simp only [erase, this]
    exact Track.overviewRestM hr hv' hq hst.2
  | _ => exact Track.overviewRestM hr hv' hq hst

theorem optDequant_andThen (rec : Node → Py Node) (s : Node) (q : Quantization) (d : Int × Int) :
    optDequant rec s q d = andThen (rec s) fun s' => match s' with
      | .dequant _ _ _ => .error .assertionError
      | .warp x tf dw a => andThen (.ok (mkDequant x q)) fun m => andThen (rec (.warp m tf dw a)) (finish rec)
      | s' => finish rec (.dequant s' q d) := by
  unfold optDequant andThen
  cases rec s with
  | error e => rfl
  | ok s' =>
    cases s' with
    | warp x tf dw a =>
      dsimp only
      cases rec (.warp (mkDequant x q) tf dw a) <;> rfl
    | _ => rfl

theorem Track.optDequantM {s : Obj} {q : Quantization × Cell} {d : Int × Int} {st : St}
    (hr : RecTrack H rec g gl) (hv : Valid H st) (hs : Ap st.sizes qa oa (.dequant s q d)) :
    Track H (Val qa oa) st (optDequantM rec s q d st) (optDequant g (erase s) q.1 d)
      (optDequant gl (erase s) q.1 d) := by
  rw [optDequant_andThen, optDequant_andThen, Tree.optDequantM]
  refine Track.bind (hr st s true oa hv hs.2.2) fun s' t st' h' hv' hst => ?_
  obtain ⟨rfl, hst⟩ := hst
  have hfin := Track.finishM (qa := qa) (oa := oa) (new := .dequant s' q d) hr hv'
    ⟨hs.1, getElem?_ext h' hs.2.1, hst⟩
  cases s' with
  | dequant _ _ _ => exact Track.error _ hv'
  | warp x tf dw a =>
    refine Track.bind (Track.newDequant (qa := qa) hv' hs.1 (s := x) hst) fun m m' st1 _ hv1 hm => ?_
    obtain ⟨rfl, hm⟩ := hm
    refine Track.bind (hr st1 (.warp m tf dw a) qa oa hv1 hm) fun r r' st2 _ hv2 hrr => ?_
    obtain ⟨rfl, hrr⟩ := hrr
    exact Track.finishM hr hv2 hrr
  | _ => exact hfin

/-- What `DelayedChannelConcat.optimize` does with the optimized parts. -/
def rejoined (ps : List Node) (d : Int × Int) (qs : List Node) : Py Node :=
  match mkConcat qs with
  | .ok c => .ok c
  | .error .coordinateCompat => .ok (.concat ps d)
  | .error e => .error e

theorem optConcat_andThen (rec : Node → Py Node) (ps : List Node) (d : Int × Int) :
    optConcat rec ps d = andThen (mapAll rec ps) (rejoined ps d) := by
  unfold optConcat andThen rejoined
  cases mapAll rec ps with
  | error e => rfl
  | ok qs => dsimp only; rcases mkConcat_cases qs with ⟨c, h⟩ | h | h <;> simp only [h]

theorem Track.optConcatM {ps : List Obj} {d : Int × Int} {st : St} (hr : RecTrack H rec g gl)
    (hv : Valid H st) (hs : ApL st.sizes qa oa ps) :
    Track H (Val qa oa) st (optConcatM rec ps d st) (optConcat g (eraseL ps) d)
      (optConcat gl (eraseL ps) d) := by
  rw [optConcat_andThen, optConcat_andThen, Tree.optConcatM]
  refine Track.bind (Track.mapRun (qa := qa) (oa := oa) hv fun p hp st' h' hv' =>
    hr st' p qa oa hv' (Ap.ext h' _ ((ApL_iff _).1 hs p hp))) fun qs qs' st' h' hv' hqs => ?_
  obtain ⟨rfl, hqs⟩ := hqs
  have he := mkConcat_erase qs
  rw [ApL.refresh qs hqs, ApL.refresh ps (ApL.ext h' ps hs)]
  rcases mkConcat_cases qs with ⟨c, h⟩ | h | h
  · rw [h] at he
    simp only [rejoined, he, h, Except.map]
    exact Track.ret hv' ⟨rfl, Ap.mkConcat hqs h⟩
  · rw [h] at he
    simp only [rejoined, he, h, Except.map]
    exact Track.error _ hv'
  · rw [h] at he
    simp only [rejoined, he, h, Except.map]
    exact Track.ret (a := (.concat ps d : Obj)) hv' ⟨rfl, ApL.ext h' ps hs⟩

theorem Track.optStepM {x : Obj} {st : St} (hr : RecTrack H rec g gl) (hv : Valid H st)
    (hs : Ap st.sizes qa oa x) :
    Track H (Val qa oa) st (optStepM H rec x st) (optStep H g (erase x)) (optStep H gl (erase x)) := by
  cases x with
  | leaf l => exact Track.ret hv ⟨rfl, hs⟩
  | concat ps d => exact Track.optConcatM hr hv hs
  | warp s tf d a => exact Track.optWarpM hr hv hs
  | crop s y0 y1 x0 x1 c => exact Track.optCropM hr hv hs
  | overview s k d => exact Track.optOverviewM hr hv hs.1 hs.2
  | dequant s q d => exact Track.optDequantM hr hv hs

theorem lookup_mem {α β : Type} [BEq α] [LawfulBEq α] {k : α} {v : β} : ∀ {l : List (α × β)},
    l.lookup k = some v → (k, v) ∈ l
  | [], h => by simp at h
  | e :: l, h => by
    rw [List.lookup_cons] at h
    split at h
    · rename_i hk
      cases h
      rw [eq_of_beq hk]; simp
    · exact List.mem_cons_of_mem _ (lookup_mem h)

/-- `optimize` with its memo does the same as without. -/
theorem track (H : Heur) (ident : Ident) : ∀ f, RecTrack H (optM H ident f) (opt H f) (lim H)
  | 0 => fun st x qa oa hv _ =>
    ⟨List.prefix_refl _, hv, .inl rfl, (fun _ h => by cases h), fun _ => rfl,
      (fun e h he => absurd (by cases h; rfl) he)⟩
  | f + 1 => by
    intro st x qa oa hv hx
    have hrf := Ap.refresh x hx
    have hst : ∀ qa oa, Ap st.sizes qa oa x → Track H (Val qa oa) { st with calls := st.calls + 1 }
        (optStepM H (optM H ident f) x { st with calls := st.calls + 1 }) (optStep H (opt H f) (erase x))
        (optStep H (lim H) (erase x)) := fun qa oa hx =>
      Track.optStepM (track H ident f) hv hx
    have h0 := hst qa oa hx
    have hmono : opt H (f + 1) (erase x) = .error .recursion ∨ opt H (f + 1) (erase x) = lim H (erase x) := by
      rcases h0.mono with h | h
      · exact .inl h
      · by_cases hg : optStep H (lim H) (erase x) = .error .recursion
        · rw [hg] at h; exact .inl h
        · rw [lim_step hg]; exact .inr h
    unfold optM memoized
    simp only [hrf]
    cases hl : st.memo.lookup (ident st.calls x, bare x) with
    | some r =>
      obtain ⟨y, qa', oa', h1, h2, h3, h4⟩ := hv _ (lookup_mem hl)
      have := Ap.bare_inj y x h2 hx h1
      subst this
      have hr := h3 qa oa hx
      dsimp only
      rw [Ap.refresh _ hr]
      exact ⟨List.prefix_refl _, hv, hmono, (fun a ha => by cases ha; exact ⟨_, h4, rfl, hr⟩),
        (fun h => by cases h), (fun e h => by cases h)⟩
    | none =>
      dsimp only
      cases hX : optStepM H (optM H ident f) x { st with calls := st.calls + 1 } with
      | mk r st' =>
        rw [hX] at h0
        cases r with
        | error e =>
          refine ⟨h0.ext, h0.valid, hmono, (fun _ h => by cases h), fun h => ?_, fun e' h he => ?_⟩
          · exact h0.out h
          · cases h
            have := h0.err e rfl he
            rw [lim_step (by rw [this]; intro h; cases h; exact he rfl)]
            exact this
        | ok r =>
          obtain ⟨b, hb, hbr, hr⟩ := h0.ok r rfl
          subst hbr
          have hlim : lim H (erase x) = .ok (erase r) := by
            rw [lim_step (by rw [hb]; simp)]; exact hb
          dsimp only
          rw [Ap.refresh _ hr]
          refine ⟨h0.ext, ?_, hmono, fun a ha => ?_, (fun h => by cases h), (fun e h => by cases h)⟩
          · intro e he
            rcases List.mem_cons.1 he with rfl | he
            · refine ⟨x, qa, oa, rfl, Ap.ext h0.ext _ hx, fun qa' oa' hx' => ?_, hlim⟩
              have h5 := hst qa' oa' (Ap.mix x hx hx')
              rw [hX] at h5
              obtain ⟨_, _, _, h6⟩ := h5.ok r rfl
              exact h6
            · exact h0.valid e he
          · cases ha
            exact ⟨_, hlim, rfl, hr⟩

end Tree
end Verif
