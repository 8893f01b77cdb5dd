/-
`optimize` on chains with names of their own (`Tagged.lean`) does to the operations what `Opt.lean` says, keeps the
number of channels, and shows no name that was not there.
-/
import Verif.Tagged
import Verif.Fix

namespace Verif
namespace Tree
namespace Tagged

open Helpers Node

variable {H : Heur}

theorem count_none (k : Nat) : Count k none := by intro _ h; cases h

theorem Fitting.count : ∀ {t : Tagged}, t.Fitting → Count t.bare.nchan t.names
  | .leaf l, h => fun ns e => h.1.1 ns e
  | .warp s _ _ _ lab, h => by
    intro ns e
    cases lab with
    | none => exact h.1.count ns e
    | some l => exact h.2 ns e
  | .deq s _ _ lab, h => by
    intro ns e
    cases lab with
    | none => exact h.1.count ns e
    | some l => exact h.2 ns e
  | .crop s _ _ _ _ c lab, h => by
    intro ns e
    cases lab with
    | some l =>
      have := h.2.2.1 ns e
      cases c <;> simpa [bare, nchan] using this
    | none =>
      cases c with
      | none => exact h.1.count ns e
      | some c => exact absurd rfl (h.2.2.2 (by simp) (by simp only [names, Option.none_or] at e; rw [e]; simp))

theorem Fitting.bareNames : ∀ {t : Tagged}, t.Fitting → ∀ ns, t.bare.channels = some ns → ns.length = t.bare.nchan
  | .leaf l, h => fun ns e => h.1.1 ns e
  | .warp s _ _ _ lab, h => h.1.bareNames
  | .deq s _ _ lab, h => h.1.bareNames
  | .crop s _ _ _ _ c lab, h => by
    intro ns e
    cases c with
    | none => exact h.1.bareNames ns e
    | some c =>
      simp only [bare, channels, Option.map_eq_some_iff] at e
      obtain ⟨l, -, rfl⟩ := e
      simp [pick, bare, nchan]

theorem Fitting.noOv : ∀ {t : Tagged}, t.Fitting → NoOv t.bare
  | .leaf l, h => h.2
  | .warp s _ _ _ _, h => h.1.noOv
  | .deq s _ _ _, h => h.1.noOv
  | .crop s _ _ _ _ _ _, h => h.1.noOv

theorem overviews_ok : ∀ t : Tagged, ∃ o, t.bare.numOverviews = .ok o
  | .leaf l => ⟨_, rfl⟩
  | .warp s _ _ _ _ => overviews_ok s
  | .deq s _ _ _ => overviews_ok s
  | .crop s _ _ _ _ _ _ => overviews_ok s

theorem names_every : ∀ (t : Tagged) (ns : List Str), t.names = some ns → ∀ x ∈ ns, x ∈ t.every
  | .leaf l, ns, e, x, hx => by
    change l.names = some ns at e
    simp [every, e, hx]
  | .warp s _ _ _ lab, ns, e, x, hx => by
    cases lab with
    | none => exact names_every s ns e x hx
    | some l => cases e; simp [every, hx]
  | .deq s _ _ lab, ns, e, x, hx => by
    cases lab with
    | none => exact names_every s ns e x hx
    | some l => cases e; simp [every, hx]
  | .crop s _ _ _ _ _ lab, ns, e, x, hx => by
    cases lab with
    | none => exact names_every s ns e x hx
    | some l => cases e; simp [every, hx]

theorem pick_mem {l : List Str} {c : List Nat} (h : ∀ i ∈ c, i < l.length) : ∀ x ∈ pick [] l c, x ∈ l := by
  intro x hx
  simp only [pick, List.mem_map] at hx
  obtain ⟨i, hi, rfl⟩ := hx
  rw [List.getD_eq_getElem _ _ (h i hi)]
  exact List.getElem_mem _

/-- What `optimize` does to every image. -/
structure Good (t r : Tagged) : Prop where
  fit : r.Fitting
  count : r.bare.nchan = t.bare.nchan
  old : ∀ x ∈ r.every, x ∈ t.every
  known : t.names = none → r.names = none
  same : t.Unassigned → r.Unassigned ∧ r.names = t.names

theorem Good.trans {t r u : Tagged} (h : Good t r) (g : Good r u) : Good t u :=
  ⟨g.fit, g.count.trans h.count, fun x hx => h.old x (g.old x hx), fun e => g.known (h.known e),
    fun e => ⟨(g.same (h.same e).1).1, (g.same (h.same e).1).2.trans (h.same e).2⟩⟩

theorem Good.refl {t : Tagged} (h : t.Fitting) : Good t t := ⟨h, rfl, fun _ h => h, fun h => h, fun h => ⟨h, rfl⟩⟩

/-- No crops of leaves of NaNs. -/
def Settled : Tagged → Prop
  | leaf _ => True
  | warp s _ _ _ _ => s.Settled
  | crop s _ _ _ _ _ _ => s.Settled ∧ solid s.bare
  | deq s _ _ _ => s.Settled

/-- The same result or error without the names, and `Good` results. -/
def Follows (t : Tagged) (x : Py Tagged) (y : Py Node) : Prop :=
  y = x.map bare ∧ ∀ r, x = .ok r → Good t r ∧ r.Settled

theorem Follows.ok {t r : Tagged} (h : Good t r) (hs : r.Settled) : Follows t (.ok r) (.ok r.bare) :=
  ⟨rfl, by rintro _ ⟨⟩; exact ⟨h, hs⟩⟩

theorem Follows.err {t : Tagged} (e : PyErr) : Follows t (.error e) (.error e) := ⟨rfl, by rintro _ ⟨⟩⟩

theorem Follows.mono {t r : Tagged} {x : Py Tagged} {y : Py Node} (h : Good t r) (g : Follows r x y) :
    Follows t x y := ⟨g.1, fun u hu => ⟨h.trans (g.2 u hu).1, (g.2 u hu).2⟩⟩

theorem newCrop_follows {s : Tagged} (h : s.Fitting) {c : Option (List Nat)} (hc : IdxOk s.bare.nchan c)
    (y0 y1 x0 x1 : Int) : ∃ y0' y1' x0' x1' lab, newCrop s y0 y1 x0 x1 c = .ok (crop s y0' y1' x0' x1' c lab) ∧
      mkCrop s.bare (ints y0 y1 x0 x1) c = .ok (.crop s.bare y0' y1' x0' x1' c) ∧
      (crop s y0' y1' x0' x1' c lab).Fitting ∧ (∀ x ∈ lab.getD [], x ∈ s.every) ∧
      lab = c.bind fun c => s.names.map fun ns => pick [] ns c := by
  have hm : mkCrop s.bare (ints y0 y1 x0 x1) c = .ok (.crop s.bare
      (normSlice s.bare.dsize.2 (some y0) (some y1)).1 (normSlice s.bare.dsize.2 (some y0) (some y1)).2
      (normSlice s.bare.dsize.1 (some x0) (some x1)).1 (normSlice s.bare.dsize.1 (some x0) (some x1)).2 c) := by
    have : chanCheck s.bare c = .ok () := by
      unfold chanCheck
      split
      · rename_i c ns e
        rw [if_pos]
        simp only [List.all_eq_true, decide_eq_true_eq, h.bareNames ns e]
        exact hc
      · rfl
    simp only [mkCrop, this, ints]
  cases c with
  | none => exact ⟨_, _, _, _, none, rfl, hm, ⟨h, trivial, count_none _, by simp⟩, by simp, rfl⟩
  | some c =>
    cases e : s.names with
    | none =>
      refine ⟨_, _, _, _, none, ?_, hm, ⟨h, hc, count_none _, by simp [e]⟩, by simp, rfl⟩
      simp only [newCrop, e]
    | some ns =>
      have hl : ∀ i ∈ c, i < ns.length := by rw [h.count ns e]; exact hc
      refine ⟨_, _, _, _, some (pick [] ns c), ?_, hm, ⟨h, hc, ?_, by simp⟩, ?_, rfl⟩
      · simp only [newCrop, e]
        rw [if_pos]
        simpa using hl
      · intro l hl'
        cases hl'
        simp [pick]
      · intro x hx
        exact names_every s ns e x (pick_mem hl x hx)

theorem nans_fitting {l : Leaf} (d : Int × Int) (ns : List Str) : (nans l d (some ns)).Fitting := by
  refine ⟨⟨?_, by simp⟩, .inl rfl⟩
  rintro _ ⟨⟩
  rfl

theorem nans_good {l : Leaf} (h : (leaf l).Fitting) (hn : l.nan = true) (d : Int × Int) :
    Good (leaf l) (nans l d l.names) := by
  obtain ⟨ns, e⟩ := Option.isSome_iff_exists.1 (h.1.2 hn).1
  rw [e]
  refine ⟨nans_fitting d ns, (h.1.1 ns e), by simp [nans, every, e], by simp [names, e],
    fun _ => ⟨trivial, by simp [nans, names, e]⟩⟩

theorem bare_ne_concat (t : Tagged) (ps : List Node) (d : Int × Int) : t.bare ≠ .concat ps d := by
  cases t <;> simp [bare]

theorem finish_bare (rec : Node → Py Node) (t : Tagged) : finish rec t.bare = .ok t.bare := by
  cases t with
  | leaf l => rfl
  | warp s _ _ _ _ => cases s <;> rfl
  | crop s _ _ _ _ _ _ => cases s <;> rfl
  | deq s _ _ _ => cases s <;> rfl

theorem finishCrop_bare (rec : Node → Py Node) (t : Tagged) : finishCrop rec t.bare = .ok t.bare := by
  have h := finish_bare rec t
  cases t with
  | leaf l => rfl
  | warp s _ _ _ _ => exact h
  | crop s _ _ _ _ _ _ => cases s <;> rfl
  | deq s _ _ _ => exact h

/-- The induction hypothesis. -/
def Refines (rec : Tagged → Py Tagged) (rec' : Node → Py Node) : Prop :=
  ∀ t, t.Fitting → Follows t (rec t) (rec' t.bare)

theorem restWarp_follows {rec : Tagged → Py Tagged} {rec' : Node → Py Node} (hr : Refines rec rec') {s : Tagged}
    (h : s.Fitting) (hset : s.Settled) (tf : Affine) (d : Int × Int) (a : Algo) {lab : Option (List Str)}
    (hl : Count s.bare.nchan lab) :
    Follows (warp s tf d a lab) (restWarp H rec s tf d a lab) (warpRest H rec' s.bare tf d a) := by
  have hgw : Good (warp s tf d a lab) (warp s tf d a lab) := Good.refl ⟨h, hl⟩
  have hgs : Good (warp s tf d a lab) s := ⟨h, rfl, fun x hx => by simp [every, hx],
    fun e => (Option.or_eq_none_iff.1 e).2, fun e => ⟨e.1, by rw [e.2]; rfl⟩⟩
  by_cases hz : d = s.bare.dsize ∧ H.negl a.noopEps tf = true
  · unfold restWarp warpRest
    rw [if_pos hz, if_pos hz]
    exact Follows.ok hgs hset
  · obtain ⟨o, ho⟩ := overviews_ok s
    by_cases hs : solid s.bare
    · rw [warpRest_noOv h.noOv ho (bare_ne_concat s) hs hz]
      have : restWarp H rec s tf d a lab = .ok (warp s tf d a lab) := by
        unfold restWarp
        rw [if_neg hz]
        cases s with
        | leaf l =>
          have : l.nan = false := hs
          simp [this]
        | _ => rfl
      rw [this]
      exact Follows.ok hgw hset
    · cases s with
      | leaf l =>
        have hn : l.nan = true := by simpa [solid, bare] using hs
        have e1 : restWarp H rec (leaf l) tf d a lab = rec (nans l d l.names) := by
          unfold restWarp
          rw [if_neg hz]
          simp [hn]
        have e2 : warpRest H rec' (leaf l).bare tf d a = rec' (nans l d l.names).bare := by
          unfold warpRest
          rw [if_neg hz]
          simp [bare, hn, nans, nanLeaf]
        rw [e1, e2]
        have g := nans_good h hn d
        exact (hr _ g.fit).mono (hgs.trans g)
      | _ => exact absurd trivial hs

theorem optWarp_follows {rec : Tagged → Py Tagged} {rec' : Node → Py Node} (hr : Refines rec rec') {s : Tagged}
    (h : s.Fitting) (tf : Affine) (d : Int × Int) (a : Algo) {lab : Option (List Str)} (hl : Count s.bare.nchan lab) :
    Follows (warp s tf d a lab) (optWarp H rec s tf d a lab) (Tree.optWarp H rec' s.bare tf d a) := by
  obtain ⟨e, g⟩ := hr s h
  unfold optWarp Tree.optWarp
  rw [e]
  cases hs : rec s with
  | error e => exact Follows.err e
  | ok s' =>
    obtain ⟨g, hset⟩ := g s' hs
    have hl' : Count s'.bare.nchan lab := by rw [g.count]; exact hl
    have key : ∀ t, t = s' → Good (warp s tf d a lab) (warp t tf d a lab) := by
      rintro t rfl
      refine ⟨⟨g.fit, hl'⟩, g.count, fun x hx => ?_, fun hz => ?_, fun hu => ⟨⟨(g.same hu.1).1, hu.2⟩, ?_⟩⟩
      · simp only [every, List.mem_append] at hx ⊢
        exact hx.imp id (g.old x)
      · simp only [names, Option.or_eq_none_iff] at hz ⊢
        exact ⟨hz.1, g.known hz.2⟩
      · simp only [names, (g.same hu.1).2]
    cases s' with
    | warp s1 tf1 d1 a1 lab1 =>
      refine Follows.mono ?_ (restWarp_follows (lab := none) hr g.fit.1 hset (tf * tf1) d a.common (count_none _))
      refine ⟨⟨g.fit.1, count_none _⟩, g.count, fun x hx => ?_, fun hz => ?_, fun hu => ?_⟩
      · simp only [every, List.mem_append] at hx ⊢
        refine .inr (g.old x ?_)
        simp only [every, List.mem_append]
        exact .inr (by simpa using hx)
      · simp only [names, Option.or_eq_none_iff] at hz ⊢
        have := g.known hz.2
        simp only [names, Option.or_eq_none_iff] at this
        exact ⟨trivial, this.2⟩
      · obtain ⟨hu1, hu2⟩ := g.same hu.1
        refine ⟨⟨hu1.1, rfl⟩, ?_⟩
        have : s1.names = s.names := by simpa [names, hu1.2] using hu2
        simp [names, hu.2, this]
    | leaf l => exact (restWarp_follows hr g.fit hset tf d a hl').mono (key _ rfl)
    | crop s1 y0 y1 x0 x1 c l => exact (restWarp_follows hr g.fit hset tf d a hl').mono (key _ rfl)
    | deq s1 q d1 l => exact (restWarp_follows hr g.fit hset tf d a hl').mono (key _ rfl)

theorem crop_nchan (s : Tagged) (y0 y1 x0 x1 : Int) (c : Option (List Nat)) (lab : Option (List Str)) :
    (crop s y0 y1 x0 x1 c lab).bare.nchan = (c.map List.length).getD s.bare.nchan := by
  cases c <;> simp [bare, nchan]

theorem restCrop_follows {rec : Tagged → Py Tagged} {rec' : Node → Py Node} (hr : Refines rec rec') {s : Tagged}
    {y0 y1 x0 x1 : Int} {c : Option (List Nat)} {lab : Option (List Str)}
    (h : (crop s y0 y1 x0 x1 c lab).Fitting) (hset : (crop s y0 y1 x0 x1 c lab).Settled) :
    Follows (crop s y0 y1 x0 x1 c lab) (restCrop rec s y0 y1 x0 x1 c lab)
      (cropRest rec' s.bare y0 y1 x0 x1 c) := by
  have hg := Good.refl h
  cases s with
  | leaf l => exact Follows.ok hg hset
  | crop s1 a1 a2 a3 a4 c1 l1 =>
    have := finishCrop_bare rec' (crop (crop s1 a1 a2 a3 a4 c1 l1) y0 y1 x0 x1 c lab)
    have e : cropRest rec' (crop s1 a1 a2 a3 a4 c1 l1).bare y0 y1 x0 x1 c =
        .ok (crop (crop s1 a1 a2 a3 a4 c1 l1) y0 y1 x0 x1 c lab).bare := this
    rw [e]
    exact Follows.ok hg hset
  | warp x tf dw a lw =>
    have hfx : x.Fitting := h.1.1
    simp only [restCrop, bare, cropRest]
    split
    · exact Follows.ok hg hset
    · unfold warpAfterCrop
      split
      · exact Follows.ok hg hset
      · obtain ⟨y0', y1', x0', x1', l', e1, e2, hf, hold, hlab⟩ := newCrop_follows hfx (c := c) h.2.1
          (innerSlice x.bare.dsize tf y0 y1 x0 x1).1.1 (innerSlice x.bare.dsize tf y0 y1 x0 x1).1.2.1
          (innerSlice x.bare.dsize tf y0 y1 x0 x1).1.2.2.1 (innerSlice x.bare.dsize tf y0 y1 x0 x1).1.2.2.2
        simp only [e1, e2]
        set n := warp (crop x y0' y1' x0' x1' c l') (innerSlice x.bare.dsize tf y0 y1 x0 x1).2
          (x1 - x0, y1 - y0) a.common none with hn
        have hgn : Good (crop (warp x tf dw a lw) y0 y1 x0 x1 c lab) n := by
          refine ⟨⟨hf, count_none _⟩, ?_, fun z hz => ?_, fun hz => ?_, fun hu => ?_⟩
          · rw [crop_nchan]
            exact crop_nchan x y0' y1' x0' x1' c l'
          · simp only [hn, every, List.mem_append] at hz ⊢
            rcases hz with hz | hz | hz
            · simp at hz
            · exact .inr (.inr (hold z hz))
            · exact .inr (.inr hz)
          · simp only [hn, names, Option.or_eq_none_iff] at hz ⊢
            refine ⟨trivial, ?_, hz.2.2⟩
            rw [hlab, hz.2.2]
            cases c <;> rfl
          · have hx : (warp x tf dw a lw).names = x.names := by simp [names, hu.1.2]
            have hlab' : lab = l' := by rw [hu.2, hlab, hx]
            refine ⟨⟨⟨hu.1.1, hlab⟩, rfl⟩, ?_⟩
            simp [hn, names, hlab', hu.1.2]
        obtain ⟨e, g⟩ := hr n hgn.fit
        change rec' (.warp (.crop x.bare y0' y1' x0' x1' c) _ _ _) = _ at e
        rw [e]
        refine ⟨?_, fun r hr' => ⟨hgn.trans (g r hr').1, (g r hr').2⟩⟩
        cases rec n with
        | error e => rfl
        | ok r => exact finishCrop_bare rec' r
  | deq x q dq lq =>
    have hfx : x.Fitting := h.1.1
    simp only [restCrop, bare, cropRest]
    set n := deq (crop x y0 y1 x0 x1 c lab) q (x1 - x0, y1 - y0) none with hn
    have hgn : Good (crop (deq x q dq lq) y0 y1 x0 x1 c lab) n := by
      refine ⟨⟨⟨hfx, h.2.1, h.2.2.1, fun hc hx => h.2.2.2 hc ?_⟩, count_none _⟩, ?_, fun z hz => ?_, fun hz => ?_,
        fun hu => ?_⟩
      · cases lq <;> simp [names, hx]
      · rw [crop_nchan]
        exact crop_nchan x y0 y1 x0 x1 c lab
      · simp only [hn, every, List.mem_append] at hz ⊢
        rcases hz with hz | hz | hz
        · simp at hz
        · exact .inl hz
        · exact .inr (.inr hz)
      · simp only [hn, names, Option.or_eq_none_iff] at hz ⊢
        exact ⟨trivial, hz.1, hz.2.2⟩
      · have hx : (deq x q dq lq).names = x.names := by simp [names, hu.1.2]
        refine ⟨⟨⟨hu.1.1, by rw [hu.2, hx]⟩, rfl⟩, ?_⟩
        simp [hn, names, hu.1.2]
    obtain ⟨e, g⟩ := hr n hgn.fit
    have e' : rec' (mkDequant (.crop x.bare y0 y1 x0 x1 c) q) = (rec n).map bare := e
    rw [e']
    refine ⟨?_, fun r hr' => ⟨hgn.trans (g r hr').1, (g r hr').2⟩⟩
    cases rec n with
    | error e => rfl
    | ok r => exact finishCrop_bare rec' r

theorem takeList_ok {inner : List Nat} : ∀ {o : List Nat}, (∀ i ∈ o, i < inner.length) →
    takeList inner o = .ok (pick 0 inner o)
  | [], _ => rfl
  | i :: is, h => by
    have hi := h i (by simp)
    have ht := takeList_ok (o := is) (fun j hj => h j (List.mem_cons_of_mem _ hj))
    simp only [takeList, List.getElem?_eq_getElem hi, ht]
    simp [pick, hi]

/-- Two selections of channels that exist make one. -/
theorem fuseChans_ok {k : Nat} {ic c : Option (List Nat)} (h : IdxOk k ic) (h' : IdxOk ((ic.map List.length).getD k) c) :
    ∃ nc, fuseChans ic c = .ok nc ∧ IdxOk k nc ∧
      (nc.map List.length).getD k = (c.map List.length).getD ((ic.map List.length).getD k) ∧
      ∀ o : Option (List Str), (nc.bind fun c => o.map fun ns => pick [] ns c).or o =
        (c.bind fun c => ((ic.bind fun c => o.map fun ns => pick [] ns c).or o).map fun ns => pick [] ns c).or
          ((ic.bind fun c => o.map fun ns => pick [] ns c).or o) := by
  cases c with
  | none =>
    cases ic with
    | none => exact ⟨none, rfl, h, rfl, fun o => by cases o <;> rfl⟩
    | some i => exact ⟨some i, rfl, h, rfl, fun o => by cases o <;> rfl⟩
  | some o =>
    cases ic with
    | none => exact ⟨some o, rfl, h', rfl, fun o => by cases o <;> rfl⟩
    | some i =>
      have hb : ∀ j ∈ o, j < i.length := h'
      refine ⟨some (pick 0 i o), by simp only [fuseChans, takeList_ok hb], ?_, by simp [pick], fun n => ?_⟩
      swap
      · cases n with
        | none => rfl
        | some ns =>
          simp only [Option.bind_some, Option.map_some, Option.some_or, Option.some.injEq]
          simp only [pick, List.map_map]
          refine List.map_congr_left fun j hj => ?_
          have := hb j hj
          simp [this]
      intro j hj
      simp only [pick, List.mem_map] at hj
      obtain ⟨m, hm, rfl⟩ := hj
      rw [List.getD_eq_getElem _ _ (hb m hm)]
      exact h _ (List.getElem_mem _)

theorem cropNans_same {l : Leaf} (h : (leaf l).Fitting) (y0 y1 x0 x1 : Int) {c : Option (List Nat)}
    (hc : IdxOk l.nchan c) (hn : l.nan = true) (lab : Option (List Str)) :
    (∃ e, cropNans l y0 y1 x0 x1 c = .error e ∧ (nanCrop l y0 y1 x0 x1 c : Py Node) = .error e) ∨
    ∃ r, cropNans l y0 y1 x0 x1 c = .ok r ∧ nanCrop l y0 y1 x0 x1 c = .ok r.bare ∧
      Good (crop (leaf l) y0 y1 x0 x1 c lab) r := by
  obtain ⟨ns, e⟩ := Option.isSome_iff_exists.1 (h.1.2 hn).1
  have hl : ns.length = l.nchan := h.1.1 ns e
  have fin : ∀ ns' d, (∀ x ∈ ns', x ∈ ns) → ns'.length = (c.map List.length).getD l.nchan →
      some ns' = (c.bind fun c => l.names.map fun ns => pick [] ns c).or l.names →
      Good (crop (leaf l) y0 y1 x0 x1 c lab) (nans l d (some ns')) := by
    intro ns' d e2 e3 e4
    refine ⟨nans_fitting _ _, ?_, ?_, ?_, fun hu => ⟨trivial, ?_⟩⟩
    · rw [crop_nchan]
      exact e3
    · intro z hz
      have : z ∈ ns' := by simpa [nans, every] using hz
      simp [every, e, e2 z this]
    · intro hz
      simp [names, e] at hz
    · rw [names, hu.2]
      exact e4
  unfold cropNans nanCrop
  cases c with
  | none =>
    simp only [e]
    cases h1 : embedSlice y0 y1 l.dsize.2 0 0 with
    | error e => exact .inl ⟨e, rfl, rfl⟩
    | ok y =>
      cases h2 : embedSlice x0 x1 l.dsize.1 0 0 with
      | error e => exact .inl ⟨e, rfl, rfl⟩
      | ok x => exact .inr ⟨_, rfl, rfl, fin _ _ (fun _ h => h) hl (by rw [e]; rfl)⟩
  | some c =>
    have hb : ∀ i ∈ c, i < ns.length := by rw [hl]; exact hc
    have ha : (c.all fun i => decide (i < ns.length)) = true := by simpa using hb
    simp only [e, ha, if_true]
    cases h1 : embedSlice y0 y1 l.dsize.2 0 0 with
    | error e => exact .inl ⟨e, rfl, rfl⟩
    | ok y =>
      cases h2 : embedSlice x0 x1 l.dsize.1 0 0 with
      | error e => exact .inl ⟨e, rfl, rfl⟩
      | ok x => exact .inr ⟨_, rfl, rfl, fin _ _ (pick_mem hb) (by simp [pick]) (by rw [e]; rfl)⟩

theorem optCrop_follows {rec : Tagged → Py Tagged} {rec' : Node → Py Node} (hr : Refines rec rec') {s : Tagged}
    {y0 y1 x0 x1 : Int} {c : Option (List Nat)} {lab : Option (List Str)}
    (h : (crop s y0 y1 x0 x1 c lab).Fitting) :
    Follows (crop s y0 y1 x0 x1 c lab) (optCrop rec s y0 y1 x0 x1 c lab)
      (Tree.optCrop rec' s.bare y0 y1 x0 x1 c) := by
  obtain ⟨e, g⟩ := hr s h.1
  unfold optCrop Tree.optCrop
  rw [e]
  cases hs : rec s with
  | error e => exact Follows.err e
  | ok s' =>
    obtain ⟨g, hset⟩ := g s' hs
    have hkey : ∀ t, t = s' → Good (crop s y0 y1 x0 x1 c lab) (crop t y0 y1 x0 x1 c lab) := by
      rintro t rfl
      refine ⟨⟨g.fit, g.count ▸ h.2.1, g.count ▸ h.2.2.1, fun hc hx => h.2.2.2 hc (fun hz => hx (g.known hz))⟩, ?_,
        fun x hx => ?_, fun hz => ?_, fun hu => ⟨⟨(g.same hu.1).1, by rw [(g.same hu.1).2, ← hu.2]⟩, ?_⟩⟩
      · rw [crop_nchan, crop_nchan, g.count]
      · simp only [every, List.mem_append] at hx ⊢
        exact hx.imp id (g.old x)
      · simp only [names, Option.or_eq_none_iff] at hz ⊢
        exact ⟨hz.1, g.known hz.2⟩
      · simp only [names, (g.same hu.1).2]
    cases s' with
    | crop s1 a1 a2 a3 a4 ic l1 =>
      have hic : IdxOk s1.bare.nchan ic := g.fit.2.1
      have hcn : s.bare.nchan = (ic.map List.length).getD s1.bare.nchan := by
        rw [← g.count, crop_nchan]
      obtain ⟨nc, e1, e2, e3, e4⟩ := fuseChans_ok hic (c := c) (hcn ▸ h.2.1)
      obtain ⟨b1, b2, b3, b4, l', f1, f2, f3, f4, f5⟩ := newCrop_follows g.fit.1 (c := nc) e2
        (fuseAxis a1 a2 y0 y1).1 (fuseAxis a1 a2 y0 y1).2 (fuseAxis a3 a4 x0 x1).1 (fuseAxis a3 a4 x0 x1).2
      have hgn : Good (crop s y0 y1 x0 x1 c lab) (crop s1 b1 b2 b3 b4 nc l') := by
        refine ⟨f3, ?_, fun z hz => ?_, fun hz => ?_, fun hu => ?_⟩
        · rw [crop_nchan, crop_nchan, hcn, e3]
        · have : z ∈ s1.every := by
            simp only [every, List.mem_append] at hz
            exact hz.elim (f4 z) id
          simp only [every, List.mem_append]
          refine .inr (g.old z ?_)
          simp [every, this]
        · simp only [names, Option.or_eq_none_iff] at hz ⊢
          have := g.known hz.2
          simp only [names, Option.or_eq_none_iff] at this
          refine ⟨?_, this.2⟩
          rw [f5, this.2]
          cases nc <;> rfl
        · obtain ⟨hu1, hu2⟩ := g.same hu.1
          refine ⟨⟨hu1.1, f5⟩, ?_⟩
          have := e4 s1.names
          rw [← f5, ← hu1.2] at this
          simp only [names] at hu2 ⊢
          rw [this, hu.2, hu2]
      simp only [Except.map, bare, fuseCrops, e1, f1, f2]
      cases s1 with
      | leaf l =>
        by_cases hn : l.nan = true
        · exact absurd hset.2 (by simp [solid, bare, hn])
        · simp only [bare, hn]
          exact (restCrop_follows hr f3 hset).mono hgn
      | warp x tf dw a lw => exact (restCrop_follows hr f3 hset).mono hgn
      | deq x q dq lq => exact (restCrop_follows hr f3 hset).mono hgn
      | crop x i1 i2 i3 i4 i5 i6 => exact (restCrop_follows hr f3 hset).mono hgn
    | leaf l =>
      have hk := hkey _ rfl
      by_cases hn : l.nan = true
      · simp only [Except.map, bare, hn, if_true]
        have hc : IdxOk l.nchan c := hk.fit.2.1
        rcases cropNans_same g.fit y0 y1 x0 x1 hc hn lab with ⟨e, e1, e2⟩ | ⟨r, e1, e2, hgr⟩
        · rw [e1, e2]
          exact Follows.err e
        · rw [e1, e2]
          exact (hr r hgr.fit).mono (hk.trans hgr)
      · simp only [Except.map, bare, hn]
        exact (restCrop_follows hr hk.fit ⟨trivial, by simpa [solid, bare] using hn⟩).mono hk
    | warp x tf dw a lw => exact (restCrop_follows hr (hkey _ rfl).fit ⟨hset, trivial⟩).mono (hkey _ rfl)
    | deq x q dq lq => exact (restCrop_follows hr (hkey _ rfl).fit ⟨hset, trivial⟩).mono (hkey _ rfl)

theorem optDeq_follows {rec : Tagged → Py Tagged} {rec' : Node → Py Node} (hr : Refines rec rec') {s : Tagged}
    (h : s.Fitting) (q : Quantization) (d : Int × Int) {lab : Option (List Str)} (hl : Count s.bare.nchan lab) :
    Follows (deq s q d lab) (optDeq rec s q d lab) (optDequant rec' s.bare q d) := by
  obtain ⟨e, g⟩ := hr s h
  unfold optDeq optDequant
  rw [e]
  cases hs : rec s with
  | error e => exact Follows.err e
  | ok s' =>
    obtain ⟨g, hset⟩ := g s' hs
    have hkey : ∀ t, t = s' → Good (deq s q d lab) (deq t q d lab) := by
      rintro t rfl
      refine ⟨⟨g.fit, g.count ▸ hl⟩, g.count, fun x hx => ?_, fun hz => ?_, fun hu => ⟨⟨(g.same hu.1).1, hu.2⟩, ?_⟩⟩
      · simp only [every, List.mem_append] at hx ⊢
        exact hx.imp id (g.old x)
      · simp only [names, Option.or_eq_none_iff] at hz ⊢
        exact ⟨hz.1, g.known hz.2⟩
      · simp only [names, (g.same hu.1).2]
    cases s' with
    | warp x tf dw a lw =>
      set n := warp (deq x q x.bare.dsize none) tf dw a lw with hn
      have hgn : Good (deq s q d lab) n := by
        refine ⟨⟨⟨g.fit.1, count_none _⟩, g.fit.2⟩, g.count, fun z hz => ?_, fun hz => ?_, fun hu => ?_⟩
        · have : z ∈ (warp x tf dw a lw).every := by
            simpa [hn, every] using hz
          simp only [every, List.mem_append]
          exact .inr (g.old z (by simpa [every] using this))
        · have := g.known (Option.or_eq_none_iff.1 hz).2
          simp only [names, Option.or_eq_none_iff] at this
          simp [hn, names, this.1, this.2]
        · obtain ⟨hu1, hu2⟩ := g.same hu.1
          refine ⟨⟨⟨hu1.1, rfl⟩, hu1.2⟩, ?_⟩
          have : x.names = s.names := by simpa [names, hu1.2] using hu2
          simp [hn, names, hu.2, hu1.2, this]
      obtain ⟨e, g'⟩ := hr n hgn.fit
      have e' : rec' (.warp (mkDequant x.bare q) tf dw a) = (rec n).map bare := e
      simp only [Except.map, bare]
      rw [e']
      refine ⟨?_, fun r hr' => ⟨hgn.trans (g' r hr').1, (g' r hr').2⟩⟩
      cases rec n with
      | error e => rfl
      | ok r => exact finish_bare rec' r
    | deq x q1 dq lq => exact Follows.err _
    | leaf l => exact Follows.ok (hkey _ rfl) hset
    | crop s1 a1 a2 a3 a4 ic l1 => exact Follows.ok (hkey _ rfl) hset

/-- Nothing happens to an image on which no rule applies. -/
theorem done_opt : ∀ (f : Nat) (t : Tagged), Done H t.bare → deepness t.bare ≤ f → opt H f t = .ok t
  | 0, t, _, hf => by cases t <;> simp [deepness, bare] at hf
  | f + 1, .leaf l, _, _ => rfl
  | f + 1, .warp s tf d a lab, hd, hf => by
    simp only [bare, Done] at hd
    obtain ⟨h1, h2, h3, h4⟩ := hd
    have e := done_opt f s h1 (by simp only [deepness, bare] at hf; omega)
    simp only [opt, optWarp, e]
    cases s with
    | leaf l =>
      have : l.nan = false := h3
      simp only [restWarp, if_neg h4, this, Bool.false_eq_true, if_false]
    | warp => exact h2.elim
    | crop => simp only [restWarp, if_neg h4]
    | deq => simp only [restWarp, if_neg h4]
  | f + 1, .crop s y0 y1 x0 x1 c lab, hd, hf => by
    simp only [bare, Done] at hd
    have e := done_opt f s hd.1 (by simp only [deepness, bare] at hf; omega)
    simp only [opt, optCrop, e]
    have hu := hd.2
    cases s with
    | leaf l =>
      have : l.nan = false := hu
      simp only [restCrop, this, Bool.false_eq_true, if_false]
    | warp x tf d a lw =>
      simp only [restCrop]
      rcases hu with hu | hu
      · rw [if_pos hu]
      · rw [if_pos hu, ite_self]
    | crop => exact hu.elim
    | deq => exact hu.elim
  | f + 1, .deq s q d lab, hd, hf => by
    simp only [bare, Done] at hd
    have e := done_opt f s hd.1 (by simp only [deepness, bare] at hf; omega)
    simp only [opt, optDeq, e]
    have hu := hd.2
    cases s with
    | leaf l => rfl
    | crop => rfl
    | warp => exact hu.elim
    | deq => exact hu.elim

/-- More fuel changes nothing but running out of it. -/
def Extends (rec rec' : Tagged → Py Tagged) : Prop := ∀ t, rec t ≠ .error .recursion → rec' t = rec t

theorem restWarp_extends {rec rec' : Tagged → Py Tagged} (h : Extends rec rec') {s : Tagged} {tf : Affine} {d : Int × Int}
    {a : Algo} {lab : Option (List Str)} (hn : restWarp H rec s tf d a lab ≠ .error .recursion) :
    restWarp H rec' s tf d a lab = restWarp H rec s tf d a lab := by
  unfold restWarp at hn ⊢
  split
  · rfl
  · rename_i hz
    rw [if_neg hz] at hn
    cases s with
    | leaf l =>
      simp only at hn ⊢
      split
      · rename_i hl
        rw [if_pos hl] at hn
        exact h _ hn
      · rfl
    | _ => rfl

theorem restCrop_extends {rec rec' : Tagged → Py Tagged} (h : Extends rec rec') {s : Tagged} {y0 y1 x0 x1 : Int}
    {c : Option (List Nat)} {lab : Option (List Str)} (hn : restCrop rec s y0 y1 x0 x1 c lab ≠ .error .recursion) :
    restCrop rec' s y0 y1 x0 x1 c lab = restCrop rec s y0 y1 x0 x1 c lab := by
  cases s with
  | leaf l => rfl
  | crop => rfl
  | deq x q d l => exact h _ hn
  | warp x tf d a l =>
    simp only [restCrop] at hn ⊢
    split
    · rfl
    · rename_i h1
      rw [if_neg h1] at hn
      split
      · rfl
      · rename_i h2
        rw [if_neg h2] at hn
        cases e : newCrop x (innerSlice x.bare.dsize tf y0 y1 x0 x1).1.1 (innerSlice x.bare.dsize tf y0 y1 x0 x1).1.2.1
          (innerSlice x.bare.dsize tf y0 y1 x0 x1).1.2.2.1 (innerSlice x.bare.dsize tf y0 y1 x0 x1).1.2.2.2 c with
        | error e => rfl
        | ok inner =>
          rw [e] at hn
          exact h _ hn

theorem step_extends {rec rec' : Tagged → Py Tagged} (h : Extends rec rec') {s : Tagged} {y0 y1 x0 x1 : Int}
    {c : Option (List Nat)} {lab : Option (List Str)} (hn : optCrop rec s y0 y1 x0 x1 c lab ≠ .error .recursion) :
    optCrop rec' s y0 y1 x0 x1 c lab = optCrop rec s y0 y1 x0 x1 c lab := by
  unfold optCrop at hn ⊢
  have hs : rec s ≠ .error .recursion := by
    intro e
    rw [e] at hn
    exact hn rfl
  rw [h s hs]
  cases e : rec s with
  | error e => rfl
  | ok s' =>
    rw [e] at hn
    simp only at hn ⊢
    split
    · rfl
    · rename_i s2 b1 b2 b3 b4 c' l' e1
      rw [e1] at hn
      simp only at hn ⊢
      split
      · rename_i l e2
        rw [e2] at hn
        simp only at hn ⊢
        cases e3 : cropNans l y0 y1 x0 x1 c with
        | error e => rfl
        | ok r =>
          rw [e3] at hn
          exact h _ hn
      · rename_i e2
        rw [e2] at hn
        exact restCrop_extends h hn
    · rfl

theorem opt_extends : ∀ f, Extends (opt H f) (opt H (f + 1))
  | 0 => fun t hn => absurd rfl hn
  | f + 1 => fun t hn => by
    have ih := opt_extends f
    cases t with
    | leaf l => rfl
    | crop s y0 y1 x0 x1 c lab => exact step_extends ih hn
    | warp s tf d a lab =>
      simp only [opt] at hn ⊢
      unfold optWarp at hn ⊢
      have hs : opt H f s ≠ .error .recursion := by
        intro e
        rw [e] at hn
        exact hn rfl
      change (match opt H (f + 1) s with | .error e => _ | .ok (warp _ _ _ _ _) => _ | .ok _ => _) = _
      rw [ih s hs]
      cases e : opt H f s with
      | error e => rfl
      | ok s' =>
        rw [e] at hn
        cases s' <;> exact restWarp_extends ih hn
    | deq s q d lab =>
      simp only [opt] at hn ⊢
      unfold optDeq at hn ⊢
      have hs : opt H f s ≠ .error .recursion := by
        intro e
        rw [e] at hn
        exact hn rfl
      change (match opt H (f + 1) s with
        | .error e => _ | .ok (deq _ _ _ _) => _ | .ok (warp _ _ _ _ _) => _ | .ok _ => _) = _
      rw [ih s hs]
      cases e : opt H f s with
      | error e => rfl
      | ok s' =>
        rw [e] at hn
        cases s' with
        | warp => exact ih _ hn
        | _ => rfl

theorem opt_late {f g : Nat} (hg : f ≤ g) {t r : Tagged} (h : opt H f t = .ok r) : opt H g t = .ok r := by
  induction hg with
  | refl => exact h
  | step _ ih => rw [opt_extends _ t (by rw [ih]; simp), ih]

theorem refines (H : Heur) : ∀ f, Refines (opt H f) (Tree.opt H f)
  | 0 => fun t _ => Follows.err _
  | f + 1 => fun t h => by
    have hr := refines H f
    cases t with
    | leaf l => exact Follows.ok (Good.refl h) trivial
    | warp s tf d a lab => exact optWarp_follows hr h.1 tf d a h.2
    | crop s y0 y1 x0 x1 c lab => exact optCrop_follows hr h
    | deq s q d lab => exact optDeq_follows hr h.1 q d h.2

end Tagged
end Tree
end Verif
