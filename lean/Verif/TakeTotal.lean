/-
`take_channels` succeeds on every in-range, non-empty request, and what it returns for names.
-/
import Verif.SizeRules

namespace Verif
namespace Tree

open Helpers Node

theorem mapAll_total {α β} {f : α → Py β} {l : List α} (h : ∀ x ∈ l, ∃ y, f x = .ok y) :
    ∃ ys, mapAll f l = .ok ys := by
  induction l with
  | nil => exact ⟨[], rfl⟩
  | cons a l ih =>
    obtain ⟨y, hy⟩ := h a (by simp)
    obtain ⟨ys, hys⟩ := ih fun x hx => h x (by simp [hx])
    exact ⟨y :: ys, by simp [mapAll, hy, hys]⟩

theorem unravel_total (sizes : List Nat) (i : Nat) (h : i < sizes.sum) : (unravel sizes i).isSome := by
  induction sizes generalizing i with
  | nil => simp at h
  | cons n ns ih =>
    simp only [unravel]
    split
    · rfl
    · rw [Option.isSome_map]
      exact ih _ (by simp at h; omega)

theorem accLoop_total {sizes : List Nat} {reqs : List (Option Nat × Option Str)}
    (h : ∀ r ∈ reqs, ∀ i, r.1 = some i → i < sizes.sum) (st : Acc) :
    ∃ segs, accLoop sizes st reqs = .ok segs := by
  induction reqs generalizing st with
  | nil => exact ⟨_, rfl⟩
  | cons r rs ih =>
    have hl : ∃ x, locate sizes st.2 r.1 = .ok x := by
      cases hr : r.1 with
      | none => exact ⟨_, rfl⟩
      | some i =>
        obtain ⟨⟨o, j⟩, hoj⟩ := Option.isSome_iff_exists.1 (unravel_total sizes i (h r (by simp) i hr))
        exact ⟨(some o, j), by simp only [locate, hoj]⟩
    obtain ⟨⟨comp, inner⟩, hx⟩ := hl
    obtain ⟨segs, hs⟩ := ih (fun r hr => h r (by simp [hr])) (extend st comp inner r.2)
    exact ⟨segs, by simp only [accLoop, hx]; exact hs⟩

theorem Seg.indexer_total {s : Seg} (hs : s.Inv) (n : Nat) : ∃ r, s.indexer n = .ok r := by
  unfold Seg.indexer
  split
  · rename_i a b ha hb
    rcases hs with ⟨h1, _, _⟩ | ⟨a', h1, _, h3⟩
    · rw [h1] at ha; cases ha
    · rw [h1] at ha
      cases ha
      obtain ⟨hlt, hix⟩ := h3 b hb
      split
      · rename_i h0
        obtain ⟨rfl, rfl⟩ := h0
        rw [if_pos]
        · exact ⟨_, rfl⟩
        · rw [hix]
          obtain ⟨m, rfl⟩ : ∃ m, b = m + 1 := ⟨b - 1, by omega⟩
          constructor
          · simp [List.range_succ_eq_map]
          · simp [List.range_succ]
      · rw [if_pos hix.symm]
        exact ⟨_, rfl⟩
  · exact ⟨_, rfl⟩

/-- Selecting in-range channels of an image succeeds. -/
theorem mkCrop_total {s : Node} (hs : WF s) {idxs : List Nat} (hi : ∀ i ∈ idxs, i < nchan s)
    (sl : Option Space) : ∃ t, mkCrop s sl (some idxs) = .ok t := by
  have : chanCheck s (some idxs) = .ok () := by
    unfold chanCheck
    cases hc : s.channels with
    | none => rfl
    | some l =>
      have := channels_length s l hs hc
      simp only
      rw [if_pos]
      simpa [this] using hi
  unfold mkCrop
  rw [this]
  cases sl with
  | none => exact ⟨_, rfl⟩
  | some sl => exact ⟨_, rfl⟩

theorem concatTake_total {ps : List Node} {d : Int × Int} (hps : WFL d ps)
    (hT : ∀ p ∈ ps, ∀ idxs, idxs ≠ [] → (∀ i ∈ idxs, i < nchan p) → ∃ t, takeIdx p idxs = .ok t)
    {reqs : List (Option Nat × Option Str)} (hreq : ReqsOk reqs) (hne : reqs ≠ [])
    (hin : ∀ r ∈ reqs, ∀ i, r.1 = some i → i < nchans ps) :
    ∃ t, concatTake d (takers ps) reqs = .ok t := by
  have hsz : (takers ps).map (fun p => p.1.nchan) = ps.map nchan := by
    rw [takers_eq, List.map_map]; rfl
  unfold concatTake
  rw [hsz]
  obtain ⟨segs, hsegs⟩ := accLoop_total (sizes := ps.map nchan) (reqs := reqs)
    (by rw [← nchans_eq]; exact hin) ([], none)
  obtain ⟨r1, r2, r3⟩ := accLoop_ok hsegs (by simp [accSegs])
  have r4 := accLoop_nonempty hsegs (by simp [accSegs])
  simp only [accSegs, Option.toList_none, List.append_nil, List.flatMap_nil, List.nil_append] at r1
  have hsub : ∀ s ∈ segs, ∃ t, Seg.sub d (takers ps) s = .ok t ∧ t.dsize = d := by
    intro s hs
    unfold Seg.sub
    cases hc : s.comp with
    | none => exact ⟨nanLeaf 0 d s.codes, rfl, rfl⟩
    | some o =>
      have hpos : ∀ j ∈ s.indexes, ∃ p, ps[o]? = some p ∧ j < nchan p := by
        intro j hj
        have : some (o, j) ∈ segs.flatMap Seg.rep := by
          rw [List.mem_flatMap]
          exact ⟨s, hs, by simp only [Seg.rep, List.mem_map]; exact ⟨j, hj, by simp [hc]⟩⟩
        rw [r1, List.mem_map] at this
        obtain ⟨r, hr, e⟩ := this
        simp only [reqPos, Option.bind_eq_some_iff] at e
        obtain ⟨i, _, hu⟩ := e
        obtain ⟨p, h1, h2, _⟩ := unravel_den hu
        exact ⟨p, h1, h2⟩
      obtain ⟨j, hj⟩ := List.exists_mem_of_ne_nil _ (r4 s hs)
      obtain ⟨p, hp, _⟩ := hpos j hj
      have hmem : p ∈ ps := List.mem_of_getElem? hp
      obtain ⟨hpw, hpd⟩ := (WFL_iff d ps).1 hps p hmem
      have hlt : ∀ j ∈ s.indexes, j < nchan p := by
        intro j hj
        obtain ⟨p', h1, h2⟩ := hpos j hj
        rw [hp] at h1
        cases h1
        exact h2
      rw [takers_eq]
      simp only [List.getElem?_map, hp, Option.map_some]
      obtain ⟨r, hr⟩ := Seg.indexer_total (r2 s hs) p.nchan
      have hix := Seg.indexer_ok (r2 s hs) hr
      cases r with
      | none => exact ⟨p, by rw [hr], hpd⟩
      | some idxs =>
        simp only [Option.getD_some] at hix
        rw [hix] at hlt
        obtain ⟨t, ht⟩ := hT p hmem idxs (by rw [← hix]; exact r4 s hs) hlt
        exact ⟨t, by rw [hr]; exact ht, (takeIdx_ok p hpw idxs t hlt ht).dsize.trans hpd⟩
  obtain ⟨comps, hcomps⟩ := mapAll_total (f := Seg.sub d (takers ps)) (l := segs) fun s hs =>
    let ⟨t, ht, _⟩ := hsub s hs; ⟨t, ht⟩
  simp only [hsegs, hcomps]
  have hc := mapAll_ok hcomps
  refine ⟨_, mkConcat_same (d := d) ?_ ?_⟩
  · rintro rfl
    have : segs = [] := by cases hc; rfl
    rw [this] at r1
    simp at r1
    exact hne r1
  · intro q hq
    obtain ⟨s, hs, e⟩ := forall₂_mem_right hc hq
    obtain ⟨t, ht, hd⟩ := hsub s hs
    rw [ht] at e
    cases e
    exact hd

mutual
/-- `take_channels` with in-range indices succeeds if the channels are known. -/
theorem takeIdx_total : ∀ (n : Node), WF n → n.channels.isSome → ∀ idxs, idxs ≠ [] →
    (∀ i ∈ idxs, i < nchan n) → ∃ t, takeIdx n idxs = .ok t
  | .leaf l, hw, _, idxs, _, h => by rw [takeIdx]; exact mkCrop_total hw h _
  | .warp s tf d a, hw, _, idxs, _, h => by rw [takeIdx]; exact mkCrop_total hw h _
  | .crop s y0 y1 x0 x1 c, hw, _, idxs, _, h => by rw [takeIdx]; exact mkCrop_total hw h _
  | .overview s k d, hw, _, idxs, _, h => by rw [takeIdx]; exact mkCrop_total hw h _
  | .dequant s q d, hw, _, idxs, _, h => by rw [takeIdx]; exact mkCrop_total hw h _
  | .concat ps d, hw, hc, idxs, hne, h => by
    have hps : WFL d ps := by rw [WF] at hw; exact hw.2
    rw [Node.channels] at hc
    rw [takeIdx]
    obtain ⟨names, hnames⟩ := Option.isSome_iff_exists.1 hc
    rw [hnames]
    refine concatTake_total hps (takeIdx_totalL ps d hps (channelsL_some hc)) (Or.inr (by simp))
      (by simpa using hne) ?_
    intro r hr i hi
    obtain ⟨j, hj, rfl⟩ := List.mem_map.1 hr
    cases hi
    exact h _ hj
theorem takeIdx_totalL : ∀ (ps : List Node) (d : Int × Int), WFL d ps → (∀ p ∈ ps, p.channels.isSome) →
    ∀ p ∈ ps, ∀ idxs, idxs ≠ [] → (∀ i ∈ idxs, i < nchan p) → ∃ t, takeIdx p idxs = .ok t
  | [], _, _, _, p, hp, _, _, _ => by simp at hp
  | q :: qs, d, h, hc, p, hp, idxs, hne, hi => by
    rw [WFL] at h
    rcases List.mem_cons.1 hp with e | hp
    · rw [e] at hi ⊢
      exact takeIdx_total q h.1 (hc q (by simp)) idxs hne hi
    · exact takeIdx_totalL qs d h.2.2 (fun p hp => hc p (by simp [hp])) p hp idxs hne hi
end

/-! #### names -/

/-- Distinct codes in order of first occurrence. -/
def firsts (names : List Str) : List Str :=
  names.foldl (fun acc c => if c ∈ acc then acc else acc ++ [c]) []

theorem firsts_aux (names acc : List Str) :
    (∀ c, c ∈ names.foldl (fun acc c => if c ∈ acc then acc else acc ++ [c]) acc ↔ c ∈ acc ∨ c ∈ names) ∧
    (names.foldl (fun acc c => if c ∈ acc then acc else acc ++ [c]) acc).length ≤
      acc.length + names.length ∧
    ((acc ++ names).Nodup → names.foldl (fun acc c => if c ∈ acc then acc else acc ++ [c]) acc =
      acc ++ names) := by
  induction names generalizing acc with
  | nil => simp
  | cons a names ih =>
    simp only [List.foldl_cons]
    obtain ⟨i1, i2, i3⟩ := ih (if a ∈ acc then acc else acc ++ [a])
    refine ⟨?_, ?_, ?_⟩
    · intro c
      rw [i1 c]
      split
      · rename_i ha
        simp only [List.mem_cons]
        constructor
        · rintro (h | h)
          · exact .inl h
          · exact .inr (.inr h)
        · rintro (h | h | h)
          · exact .inl h
          · exact .inl (h ▸ ha)
          · exact .inr h
      · simp [or_assoc]
    · refine i2.trans ?_
      split <;> simp <;> omega
    · intro hnd
      have ha : a ∉ acc := by
        intro ha
        rw [List.nodup_append] at hnd
        exact hnd.2.2 a ha a (by simp) rfl
      rw [if_neg ha] at i3 ⊢
      rw [i3 (by simpa using hnd)]
      simp

theorem osetIndex_eq (names : List Str) (c : Str) :
    osetIndex names c = if c ∈ firsts names then some ((firsts names).idxOf c) else none := rfl

theorem osetIndex_none {names : List Str} {c : Str} : osetIndex names c = none ↔ c ∉ names := by
  rw [osetIndex_eq]
  have := (firsts_aux names []).1 c
  simp only [List.not_mem_nil, false_or] at this
  have this : c ∈ firsts names ↔ c ∈ names := this
  split <;> simp_all

theorem osetIndex_lt {names : List Str} {c : Str} {i : Nat} (h : osetIndex names c = some i) :
    i < names.length := by
  rw [osetIndex_eq] at h
  split at h
  · rename_i hc
    cases h
    have := (firsts_aux names []).2.1
    simp only [List.length_nil, Nat.zero_add] at this
    exact Nat.lt_of_lt_of_le (List.idxOf_lt_length_iff.2 hc) this
  · cases h

/-- For distinct codes the position found is the position of the code. -/
theorem osetIndex_nodup {names : List Str} (hn : names.Nodup) {c : Str} {i : Nat}
    (h : osetIndex names c = some i) : names.getD i [] = c := by
  rw [osetIndex_eq] at h
  have e := (firsts_aux names []).2.2 (by simpa using hn)
  simp only [List.nil_append] at e
  rw [show firsts names = names from e] at h
  split at h
  · rename_i hc
    cases h
    have := List.idxOf_lt_length_iff.2 hc
    rw [List.getD_eq_getElem _ _ this, List.getElem_idxOf this]
  · cases h

/-- The requests for a list of codes. -/
def reqsOf (names codes : List Str) : List (Option Nat × Option Str) :=
  codes.map (fun c => (osetIndex names c, some c))

theorem reqsOk_of (names codes : List Str) : ReqsOk (reqsOf names codes) :=
  Or.inl ⟨codes, by simp [reqsOf, Function.comp_def]⟩

theorem reqsOf_in {names codes : List Str} : ∀ r ∈ reqsOf names codes, ∀ i, r.1 = some i →
    i < names.length := by
  intro r hr i hi
  obtain ⟨c, _, rfl⟩ := List.mem_map.1 hr
  exact osetIndex_lt hi

theorem takers_one (n : Node) : takers [n] = [(n, takeIdx n)] := rfl

/-- One channel of a `take_channels` result: nothing if the code is missing, otherwise the channel with
the position of the code. -/
def FromCode (n : Node) (names : List Str) (code : Str) (c : Chan) : Prop :=
  match osetIndex names code with
  | Option.none => ∀ p, ¬ c.dom p
  | some i => i < n.nchan ∧ c = (den n).getD i Chan.none

/-- The name of one channel of a `take_channels` result. -/
def NamedCode (names : List Str) (code : Str) (s : Str) : Prop :=
  match osetIndex names code with
  | Option.none => s = code
  | some i => s = names.getD i []

theorem filterMap_all {α β} {f : α → Option β} {l : List α} (h : l.all (fun c => (f c).isSome) = true) :
    List.Forall₂ (fun a b => f a = some b) l (l.filterMap f) := by
  induction l with
  | nil => exact .nil
  | cons a l ih =>
    simp only [List.all_cons, Bool.and_eq_true] at h
    obtain ⟨b, hb⟩ := Option.isSome_iff_exists.1 h.1
    rw [List.filterMap_cons_some hb]
    exact .cons hb (ih h.2)

theorem pick_forall₂ {α β γ} {R : α → β → Prop} {l : List α} {m : List γ} {g : γ → β}
    {S : α → γ → Prop} (h : List.Forall₂ S l m) (hg : ∀ a c, S a c → R a (g c)) :
    List.Forall₂ R l (m.map g) := by
  rw [List.forall₂_map_right_iff]
  exact h.imp hg

/-- The channels of a tree and its own list of codes. -/
theorem self_codes {n : Node} (hw : WF n) {names : List Str} (hn : n.channels = some names)
    (hd : names.Nodup) : List.Forall₂ (FromCode n names) names (den n) ∧
      List.Forall₂ (NamedCode names) names names := by
  have hl := channels_length n names hw hn
  have key : ∀ i (h : i < names.length), osetIndex names names[i] = some i := by
    intro i h
    have e := (firsts_aux names []).2.2 (by simpa using hd)
    simp only [List.nil_append] at e
    rw [osetIndex_eq, show firsts names = names from e, if_pos (List.getElem_mem h),
      hd.idxOf_getElem]
  constructor
  · rw [List.forall₂_iff_get]
    refine ⟨by rw [hl, den_length], fun i h1 h2 => ?_⟩
    simp only [List.get_eq_getElem, FromCode, key i h1]
    exact ⟨by rw [← hl]; exact h1, (List.getD_eq_getElem _ _ h2).symm⟩
  · rw [List.forall₂_iff_get]
    refine ⟨rfl, fun i h1 h2 => ?_⟩
    simp only [List.get_eq_getElem, NamedCode, key i h1]
    exact (List.getD_eq_getElem _ _ h2).symm

theorem concat_form {n : Node} (h : ∀ ps d, n ≠ .concat ps d) (same : Bool) (codes : List Str)
    (policy : Policy) :
    takeNamesIf same n codes policy =
    match n.channels with
    | none => .error .valueError
    | some names =>
      if codes.all (fun c => (osetIndex names c).isSome) then
        mkCrop n none (some (codes.filterMap (osetIndex names)))
      else if same then .ok (.concat [n] n.dsize)
      else
        if policy = .error ∧ (reqsOf names codes).any (fun r => r.1.isNone) then .error .valueError
        else concatTake n.dsize (takers [n]) (reqsOf names codes) := by
  cases n with
  | concat ps d => exact absurd rfl (h ps d)
  | _ => rfl

/-- `take_channels` with codes. -/
theorem takeNamesIf_ok {same : Bool} {n t : Node} (hw : WF n) {names codes : List Str}
    (hn : n.channels = some names) (hsame : same = true → n.channels = some codes)
    (hd : names.Nodup) {policy : Policy} (h : takeNamesIf same n codes policy = .ok t) :
    WF t ∧ t.dsize = n.dsize ∧ List.Forall₂ (FromCode n names) codes (den t) ∧
    ∃ l, t.channels = some l ∧ List.Forall₂ (NamedCode names) codes l := by
  by_cases hcc : ∃ ps d, n = .concat ps d
  · obtain ⟨ps, d, rfl⟩ := hcc
    have hn' : channelsL ps = some names := by rw [Node.channels] at hn; exact hn
    simp only [takeNamesIf, hn'] at h
    split at h
    · rename_i e
      have e := hn.symm.trans (hsame e)
      cases e
      cases h
      obtain ⟨h1, h2⟩ := self_codes hw hn hd
      exact ⟨hw, rfl, h1, names, hn, h2⟩
    · split at h
      · cases h
      · have hps : WFL d ps := by rw [WF] at hw; exact hw.2
        obtain ⟨⟨qs, rfl⟩, h1, h2, l, h3, h4⟩ := concatTake_ok hps (takeIdx_all ps d hps)
          (channelsL_some (by rw [hn']; rfl)) (reqsOk_of names codes) h
        refine ⟨h1, rfl, ?_, l, h3, ?_⟩
        · rw [reqsOf, List.forall₂_map_left_iff] at h2
          refine h2.imp fun c x hx => ?_
          simp only [FromReq] at hx
          unfold FromCode
          rw [show den (.concat ps d) = denL ps from by rw [den],
            show nchan (.concat ps d) = nchans ps from by rw [nchan]]
          exact hx
        · rw [reqsOf, List.forall₂_map_left_iff] at h4
          refine h4.imp fun c x hx => ?_
          simp only [NameReq] at hx
          unfold NamedCode
          split
          · rename_i e; rw [e] at hx; simpa using hx.symm
          · rename_i i e
            rw [e] at hx
            obtain ⟨l', e1, e2⟩ := hx
            rw [hn'] at e1
            cases e1
            exact e2
  · have hform := concat_form (fun ps d e => hcc ⟨ps, d, e⟩) same codes policy
    rw [hform, hn] at h
    simp only at h
    have hl := channels_length n names hw hn
    split at h
    · rename_i hall
      have hf := filterMap_all hall
      have hi : ∀ i ∈ codes.filterMap (osetIndex names), i < nchan n := by
        intro i hi
        rw [List.mem_filterMap] at hi
        obtain ⟨c, _, hc⟩ := hi
        rw [← hl]; exact osetIndex_lt hc
      have ht := mkCrop_none_ok hw hi h
      refine ⟨ht.wf, ht.dsize, ?_, _, by rw [ht.channels, hn]; rfl, ?_⟩
      · rw [ht.den]
        refine pick_forall₂ hf fun c i hc => ?_
        unfold FromCode; rw [hc]
        exact ⟨by rw [← hl]; exact osetIndex_lt hc, rfl⟩
      · refine pick_forall₂ hf fun c i hc => ?_
        simp only [NamedCode, hc]
    · split at h
      · rename_i e
        have e := hn.symm.trans (hsame e)
        cases e
        cases h
        obtain ⟨h1, h2⟩ := self_codes hw hn hd
        have hpsw : WFL n.dsize [n] := (WFL_iff _ _).2 (by simpa using hw)
        refine ⟨⟨by simp, hpsw⟩, rfl, ?_, names, ?_, h2⟩
        · rw [show den (.concat [n] n.dsize) = den n from by rw [den, denL, denL]; simp]
          exact h1
        · simp [Node.channels, channelsL, hn]
      · split at h
        · cases h
        · have hps : WFL n.dsize [n] := (WFL_iff _ _).2 (by simpa using hw)
          have hcl : channelsL [n] = some names := by simp [channelsL, hn]
          obtain ⟨⟨qs, rfl⟩, h1, h2, l, h3, h4⟩ := concatTake_ok hps (takeIdx_all [n] _ hps)
            (channelsL_some (by rw [hcl]; rfl)) (reqsOk_of names codes) h
          refine ⟨h1, rfl, ?_, l, h3, ?_⟩
          · rw [reqsOf, List.forall₂_map_left_iff] at h2
            refine h2.imp fun c x hx => ?_
            simp only [FromReq, nchans, denL, List.append_nil, Nat.add_zero] at hx
            exact hx
          · rw [reqsOf, List.forall₂_map_left_iff] at h4
            refine h4.imp fun c x hx => ?_
            simp only [NameReq] at hx
            unfold NamedCode
            split
            · rename_i e; rw [e] at hx; simpa using hx.symm
            · rename_i i e
              rw [e] at hx
              obtain ⟨l', e1, e2⟩ := hx
              rw [hcl] at e1
              cases e1
              exact e2

/-- `take_channels` with codes fails only under the error policy, for a missing code. -/
theorem takeNamesIf_total (same : Bool) {n : Node} (hw : WF n) {names codes : List Str}
    (hn : n.channels = some names)
    (hc : codes ≠ []) (policy : Policy) (hp : policy = .error → ∀ c ∈ codes, c ∈ names) :
    ∃ t, takeNamesIf same n codes policy = .ok t := by
  have hany : ¬ (policy = .error ∧ (reqsOf names codes).any (fun r => r.1.isNone) = true) := by
    rintro ⟨h1, h2⟩
    rw [List.any_eq_true] at h2
    obtain ⟨r, hr, hr'⟩ := h2
    obtain ⟨c, hcm, rfl⟩ := List.mem_map.1 hr
    simp only [Option.isNone_iff_eq_none] at hr'
    exact osetIndex_none.1 hr' (hp h1 c hcm)
  have hl := channels_length n names hw hn
  by_cases hcc : ∃ ps d, n = .concat ps d
  · obtain ⟨ps, d, rfl⟩ := hcc
    have hn' : channelsL ps = some names := by rw [Node.channels] at hn; exact hn
    have hps : WFL d ps := by rw [WF] at hw; exact hw.2
    simp only [takeNamesIf, hn']
    split
    · exact ⟨_, rfl⟩
    · rw [← reqsOf, if_neg hany]
      refine concatTake_total hps (takeIdx_totalL ps d hps (channelsL_some (by rw [hn']; rfl)))
        (reqsOk_of names codes) (by simpa [reqsOf] using hc) ?_
      intro r hr i hi
      have := reqsOf_in r hr i hi
      rw [hl, nchan] at this
      exact this
  · have hform := concat_form (fun ps d e => hcc ⟨ps, d, e⟩) same codes policy
    rw [hform, hn]
    simp only
    split
    · refine mkCrop_total hw ?_ _
      intro i hi
      rw [List.mem_filterMap] at hi
      obtain ⟨c, _, hc⟩ := hi
      rw [← hl]; exact osetIndex_lt hc
    · split
      · exact ⟨_, rfl⟩
      · have hps : WFL n.dsize [n] := (WFL_iff _ _).2 (by simpa using hw)
        have hcl : channelsL [n] = some names := by simp [channelsL, hn]
        refine concatTake_total hps (takeIdx_totalL [n] _ hps (channelsL_some (by rw [hcl]; rfl)))
          (reqsOk_of names codes) (by simpa [reqsOf] using hc) ?_
        intro r hr i hi
        have := reqsOf_in r hr i hi
        simp only [nchans, Nat.add_zero]
        omega

end Tree
end Verif
