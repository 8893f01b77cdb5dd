/-
C84: channels can be selected before or after other operations.
-/
import Verif.Props.Source
import Verif.Props.Opt
import Verif.BuiltIff

namespace Verif.Props

open Verif.Tree Verif.Helpers Verif.Tree.Node

variable {V : Type} {E : Env V}

/-- A call on an image that leaves the channels where they are. -/
inductive Job where
  | warp (tf : Affine) (d : Option (Int × Int)) (a : Algo)
  | crop (sl : Space)
  | padded (y0 y1 x0 x1 : Int) (pad : (Int × Int) × (Int × Int))
  | overview (k : Int)
  | dequant (q : Quantization)

/-- The call. -/
def Job.run (n : Node) : Job → Py Node
  | .warp tf d a => .ok (mkWarp n tf d a)
  | .crop sl => mkCrop n (some sl) none
  | .padded y0 y1 x0 x1 pad => paddedCrop n y0 y1 x0 x1 pad
  | .overview k => .ok (mkOverview n k)
  | .dequant q => .ok (mkDequant n q)

/-- One call after the other. -/
def runAll (n : Node) : List Job → Py Node
  | [] => .ok n
  | j :: js =>
    match j.run n with
    | .error e => .error e
    | .ok m => runAll m js

/-! ### what is announced -/

/-- `t` announces the channels `c` of `n`. -/
structure Chosen (c : List Nat) (n t : Node) : Prop where
  dsize : t.dsize = n.dsize
  channels : t.channels = n.channels.map (fun l => pick [] l c)
  nchan : t.nchan = c.length
  den : den t = pick Chan.none (den n) c
  src : src t = pick ⟨none, []⟩ (src n) c

/-- Operations preserve a relation between images of the same size, if warps, crops, overviews and dequantizations
do. -/
structure Carried (R : Node → Node → Prop) (js : List Job) : Prop where
  dsize : ∀ {n t}, R n t → t.dsize = n.dsize
  warp : ∀ {n t} tf d d' a, (Job.warp tf d' a ∈ js ∨ (a = .default ∧ ∃ x y, tf = .trans x y)) → R n t →
    R (.warp n tf d a) (.warp t tf d a)
  crop : ∀ {n t} y0 y1 x0 x1, R n t → R (.crop n y0 y1 x0 x1 none) (.crop t y0 y1 x0 x1 none)
  overview : ∀ {n t} k d, Job.overview k ∈ js → R n t → R (.overview n k d) (.overview t k d)
  dequant : ∀ {n t} q d, R n t → R (.dequant n q d) (.dequant t q d)

/-- The same exception, or related images. -/
def RelatedRuns (R : Node → Node → Prop) (x y : Py Node) : Prop :=
  (∃ e, x = .error e ∧ y = .error e) ∨ ∃ n t, x = .ok n ∧ y = .ok t ∧ R n t

theorem carried_run {R : Node → Node → Prop} {js : List Job} (hR : Carried R js) {n t : Node} (h : R n t) {j : Job}
    (hj : j ∈ js) : RelatedRuns R (j.run n) (j.run t) := by
  have hd := hR.dsize h
  cases j with
  | warp tf d a =>
    refine .inr ⟨_, _, rfl, rfl, ?_⟩
    simp only [mkWarp, hd]
    exact hR.warp tf _ d a (.inl hj) h
  | crop sl =>
    obtain ⟨ysl, xsl⟩ := sl
    refine .inr ⟨_, _, rfl, rfl, ?_⟩
    simp only [hd]
    exact hR.crop _ _ _ _ h
  | padded y0 y1 x0 x1 pad =>
    simp only [Job.run, paddedCrop, hd]
    cases embedSlice y0 y1 n.dsize.2 pad.1.1 pad.1.2 with
    | error e => exact .inl ⟨e, rfl, rfl⟩
    | ok u =>
      obtain ⟨ysl, yex⟩ := u
      cases embedSlice x0 x1 n.dsize.1 pad.2.1 pad.2.2 with
      | error e => exact .inl ⟨e, rfl, rfl⟩
      | ok v =>
        obtain ⟨xsl, xex⟩ := v
        simp only [mkCrop, chanCheck, ints, hd]
        split
        · refine .inr ⟨_, _, rfl, rfl, ?_⟩
          simp only [mkWarp]
          exact hR.warp _ _ none _ (.inr ⟨rfl, _, _, rfl⟩) (hR.crop _ _ _ _ h)
        · exact .inr ⟨_, _, rfl, rfl, hR.crop _ _ _ _ h⟩
  | overview k =>
    refine .inr ⟨_, _, rfl, rfl, ?_⟩
    simp only [mkOverview, hd]
    exact hR.overview k _ hj h
  | dequant q =>
    refine .inr ⟨_, _, rfl, rfl, ?_⟩
    simp only [mkDequant, hd]
    exact hR.dequant q _ h

theorem carried_runAll {R : Node → Node → Prop} {js : List Job} (hR : Carried R js) :
    ∀ (ks : List Job), (∀ j ∈ ks, j ∈ js) → ∀ {n t : Node}, R n t → RelatedRuns R (runAll n ks) (runAll t ks)
  | [], _, n, t, h => .inr ⟨n, t, rfl, rfl, h⟩
  | k :: ks, hk, n, t, h => by
    simp only [runAll]
    rcases carried_run hR h (hk k (by simp)) with ⟨e, h1, h2⟩ | ⟨n', t', h1, h2, h3⟩
    · rw [h1, h2]
      exact .inl ⟨e, rfl, rfl⟩
    · rw [h1, h2]
      exact carried_runAll hR ks (fun j hj => hk j (by simp [hj])) h3

/-- `Chosen`, and the positions exist. -/
def ChosenIn (c : List Nat) (n t : Node) : Prop := (∀ i ∈ c, i < n.nchan) ∧ Chosen c n t

theorem pick_den {c : List Nat} {n : Node} (hi : ∀ i ∈ c, i < n.nchan) (f : Chan → Chan) :
    pick Chan.none ((den n).map f) c = (pick Chan.none (den n) c).map f :=
  pick_map _ _ _ _ _ fun i hc => by rw [den_length]; exact hi i hc

theorem chosen_carried (c : List Nat) (js : List Job) : Carried (ChosenIn c) js where
  dsize h := h.2.dsize
  warp tf d _ a _ h := ⟨h.1, {
    dsize := rfl
    channels := h.2.channels
    nchan := h.2.nchan
    den := by rw [den, den, h.2.den, pick_den h.1]
    src := by rw [src_warp, src_warp, h.2.src] }⟩
  crop y0 y1 x0 x1 h := ⟨h.1, {
    dsize := rfl
    channels := h.2.channels
    nchan := h.2.nchan
    den := by simp only [den]; rw [h.2.den, pick_den h.1]
    src := by rw [src_crop, src_crop]; exact h.2.src }⟩
  overview k d _ h := ⟨h.1, {
    dsize := rfl
    channels := h.2.channels
    nchan := h.2.nchan
    den := by rw [den, den, h.2.den, pick_den h.1]
    src := by rw [src_overview, src_overview, h.2.src] }⟩
  dequant q d h := ⟨h.1, {
    dsize := rfl
    channels := h.2.channels
    nchan := h.2.nchan
    den := by rw [den, den, h.2.den, pick_den h.1]
    src := by
      rw [src_dequant, src_dequant, h.2.src]
      exact (pick_map _ _ _ _ _ fun i hc => by rw [src_length]; exact h.1 i hc).symm }⟩

/-- C84: selecting channels by position and then warping, cropping, padding, dequantizing or taking overviews any number
of times raises exactly if the operations on the whole image raise, with the same exception, and announces what
selecting the channels at the end announces: the same size, channels, number of channels, sources and dequantizations
with the same transforms. -/
theorem C84_announced {n : Node} (hb : Built n) {c : List Nat} (hc : ∀ i ∈ c, i < n.nchan) {t : Node}
    (ht : takeIdx n c = .ok t) (js : List Job) :
    (∃ e, runAll n js = .error e ∧ runAll t js = .error e) ∨
    ∃ m m', runAll n js = .ok m ∧ runAll t js = .ok m' ∧ ∀ u, Built m → takeIdx m c = .ok u →
      m'.dsize = u.dsize ∧ m'.channels = u.channels ∧ m'.nchan = u.nchan ∧ den m' = den u ∧ src m' = src u := by
  have h0 := takeIdx_ok n hb.ok.1 c t hc ht
  have hn : t.nchan = c.length := by rw [← den_length, h0.den]; simp [pick]
  have h1 : ChosenIn c n t := ⟨hc, h0.dsize, h0.channels, hn, h0.den, takeIdx_src n c t hc ht⟩
  rcases carried_runAll (chosen_carried c js) js (fun _ h => h) h1 with h | ⟨m, m', h2, h3, h4⟩
  · exact .inl h
  · refine .inr ⟨m, m', h2, h3, fun u hw hu => ?_⟩
    have h5 := takeIdx_ok m hw.ok.1 c u h4.1 hu
    have hu' : u.nchan = c.length := by rw [← den_length, h5.den]; simp [pick]
    exact ⟨h4.2.dsize.trans h5.dsize.symm, h4.2.channels.trans h5.channels.symm, h4.2.nchan.trans hu'.symm,
      h4.2.den.trans h5.den.symm, h4.2.src.trans (takeIdx_src m c u h4.1 hu).symm⟩

/-! ### arrays -/

/-- Channel `k` of `b` is channel `m` of `a`. -/
structure Copied (k m : Nat) (a b : Img V) : Prop where
  h : b.h = a.h
  w : b.w = a.w
  out : k < b.n
  inp : m < a.n
  px : ∀ y x, y < a.h → x < a.w → b.px y x k = a.px y x m

/-- Warping and resizing treat all channels alike and every channel by itself. -/
structure Env.Even (E : Env V) : Prop where
  warp : ∀ tf d a k m i j, Copied k m i j → Copied k m (E.warp tf d a i) (E.warp tf d a j)
  resize : ∀ d k m i j, Copied k m i j → Copied k m (E.resize d i) (E.resize d j)

/-- Overviews, too.  (Stored overviews that are read for the whole image are those that are computed for a
selection.) -/
def Env.EvenOverviews (E : Env V) : Prop :=
  ∀ s t o k m (i j : Img V), Copied k m i j → Copied k m (E.overview s o i) (E.overview t o j)

/-- The array of `t`, if there is one of `n`: the related channels are the same. -/
structure Taken (E : Env V) (P : Nat → Nat → Prop) (n t : Node) : Prop where
  dsize : t.dsize = n.dsize
  nchan : ∀ k m, P k m → m < n.nchan ∧ k < t.nchan
  fin : ∀ i, fin E n = .ok i → ∃ j, fin E t = .ok j ∧ j.h = i.h ∧ j.w = i.w ∧ j.n = t.nchan ∧
    ∀ k m, P k m → Copied k m i j

theorem nearestWarp_even {tf : Affine} {d : Int × Int} {f : V} {i j r : Img V} (hh : j.h = i.h) (hw : j.w = i.w)
    (h : nearestWarp i tf d f = .ok r) : ∃ r', nearestWarp j tf d f = .ok r' ∧ r'.h = r.h ∧ r'.w = r.w ∧ r'.n = j.n ∧
      ∀ k m, Copied k m i j → Copied k m r r' := by
  unfold nearestWarp at h ⊢
  by_cases hd : d.1 < 0 ∨ d.2 < 0
  · rw [if_pos hd] at h; cases h
  · simp only [hd, if_false, hh, hw] at h ⊢
    have key : ∀ k m, Copied k m i j → Copied k m
        (⟨d.2.toNat, d.1.toNat, i.n, fun y x k =>
          if 0 ≤ nearestIdx tf.d tf.ty y ∧ nearestIdx tf.d tf.ty y < i.h ∧ 0 ≤ nearestIdx tf.a tf.tx x ∧
            nearestIdx tf.a tf.tx x < i.w then
            i.px (nearestIdx tf.d tf.ty y).toNat (nearestIdx tf.a tf.tx x).toNat k else f⟩ : Img V)
        ⟨d.2.toNat, d.1.toNat, j.n, fun y x k =>
          if 0 ≤ nearestIdx tf.d tf.ty y ∧ nearestIdx tf.d tf.ty y < i.h ∧ 0 ≤ nearestIdx tf.a tf.tx x ∧
            nearestIdx tf.a tf.tx x < i.w then
            j.px (nearestIdx tf.d tf.ty y).toNat (nearestIdx tf.a tf.tx x).toNat k else f⟩ := by
      intro k m hk
      refine ⟨rfl, rfl, hk.out, hk.inp, fun y x _ _ => ?_⟩
      simp only
      split
      · exact hk.px _ _ (by omega) (by omega)
      · rfl
    split at h
    · split at h
      · cases h
        rename_i h1 h2
        rw [if_pos h1, if_pos h2]
        exact ⟨_, rfl, rfl, rfl, rfl, key⟩
      · cases h
    · cases h
      rename_i h1
      rw [if_neg h1]
      exact ⟨_, rfl, rfl, rfl, rfl, key⟩

theorem finWarp_even (hS : Env.Shaped E) (hE : Env.Even E) {tf : Affine} {d : Int × Int} {a : Algo}
    (hc : a.interp = .nearest → axisAligned tf = true) {i j r : Img V} (hh : j.h = i.h) (hw : j.w = i.w)
    (h : finWarp E tf d a i = .ok r) : ∃ r', finWarp E tf d a j = .ok r' ∧ r'.h = r.h ∧ r'.w = r.w ∧ r'.n = j.n ∧
      ∀ k m, Copied k m i j → Copied k m r r' := by
  unfold finWarp at h ⊢
  by_cases hn : a.interp = .nearest
  · simp only [hn, hc hn, if_true] at h ⊢
    split at h
    · rename_i ho
      simp only [ho, if_true]
      exact nearestWarp_even hh hw h
    · rename_i ho
      simp only [ho, if_false]
      cases h
      have e1 := hS.resize d i
      have e2 := hS.resize d j
      simp only [Prod.mk.injEq] at e1 e2
      exact ⟨_, rfl, e2.1.trans e1.1.symm, e2.2.1.trans e1.2.1.symm, e2.2.2, fun k m hk => hE.resize _ _ _ _ _ hk⟩
  · simp only [hn, if_false] at h ⊢
    cases h
    have e1 := hS.warp tf d a i
    have e2 := hS.warp tf d a j
    simp only [Prod.mk.injEq] at e1 e2
    exact ⟨_, rfl, e2.1.trans e1.1.symm, e2.2.1.trans e1.2.1.symm, e2.2.2, fun k m hk => hE.warp _ _ _ _ _ _ _ hk⟩

/-- Nearest neighbour warps are aligned with the axes. -/
def CalmJobs (js : List Job) : Prop := ∀ tf d a, Job.warp tf d a ∈ js → a.interp = .nearest → axisAligned tf = true

theorem taken_carried (hS : Env.Shaped E) (hE : Env.Even E) (P : Nat → Nat → Prop) {js : List Job} (hc : CalmJobs js)
    (ho : ∀ k, Job.overview k ∈ js → Env.EvenOverviews E) : Carried (Taken E P) js where
  dsize h := h.dsize
  warp {n t} tf d d' a hj h := {
    dsize := rfl
    nchan := h.nchan
    fin := by
      intro r hr
      rw [Tree.fin] at hr
      cases hi : Tree.fin E n with
      | error e => rw [hi] at hr; cases hr
      | ok i =>
        rw [hi] at hr
        obtain ⟨j, hj', h1, h2, h3, h4⟩ := h.fin i hi
        have ha : a.interp = .nearest → axisAligned tf = true := by
          rcases hj with hj | ⟨rfl, _⟩
          · exact hc tf d' a hj
          · intro e; cases e
        obtain ⟨r', g1, g2, g3, g4, g5⟩ := finWarp_even hS hE ha h1 h2 hr
        refine ⟨r', ?_, g2, g3, g4.trans h3, fun k m hk => g5 k m (h4 k m hk)⟩
        rw [Tree.fin, hj']
        exact g1 }
  crop {n t} y0 y1 x0 x1 h := {
    dsize := rfl
    nchan := h.nchan
    fin := by
      intro r hr
      rw [Tree.fin] at hr
      cases hi : Tree.fin E n with
      | error e => rw [hi] at hr; cases hr
      | ok i =>
        rw [hi] at hr
        obtain ⟨j, hj', h1, h2, h3, h4⟩ := h.fin i hi
        cases hr
        refine ⟨j.slice (some y0, some y1) (some x0, some x1), by rw [Tree.fin, hj']; rfl, ?_, ?_, h3, fun k m hk => ?_⟩
        · simp only [Img.slice, h1]
        · simp only [Img.slice, h2]
        · have hk' := h4 k m hk
          simp only [Img.slice, h1, h2]
          exact ⟨rfl, rfl, hk'.out, hk'.inp, fun y x hy hx => hk'.px _ _ (sliced_lt hy) (sliced_lt hx)⟩ }
  overview {n t} k d hk h := {
    dsize := rfl
    nchan := h.nchan
    fin := by
      intro r hr
      rw [Tree.fin] at hr
      cases hi : Tree.fin E n with
      | error e => rw [hi] at hr; cases hr
      | ok i =>
        rw [hi] at hr
        obtain ⟨j, hj', h1, h2, h3, h4⟩ := h.fin i hi
        cases hr
        have e1 := hS.overview n k i
        have e2 := hS.overview t k j
        simp only [Prod.mk.injEq] at e1 e2
        refine ⟨E.overview t k j, by rw [Tree.fin, hj'], ?_, ?_, e2.2.2.trans h3, fun k' m hk' =>
          ho k hk _ _ _ _ _ _ _ (h4 k' m hk')⟩
        · rw [e2.1, e1.1, h1]
        · rw [e2.2.1, e1.2.1, h2] }
  dequant {n t} q d h := {
    dsize := rfl
    nchan := h.nchan
    fin := by
      intro r hr
      rw [Tree.fin] at hr
      cases hi : Tree.fin E n with
      | error e => rw [hi] at hr; cases hr
      | ok i =>
        rw [hi] at hr
        obtain ⟨j, hj', h1, h2, h3, h4⟩ := h.fin i hi
        cases hr
        refine ⟨{ j with px := fun y x k => E.deq q (j.px y x k) }, by rw [Tree.fin, hj'], h1, h2, h3, fun k m hk => ?_⟩
        have hk' := h4 k m hk
        exact ⟨hk'.h, hk'.w, hk'.out, hk'.inp, fun y x hy hx => by
          show E.deq q _ = E.deq q _
          rw [hk'.px y x hy hx]⟩ }


theorem runAll_each {P : Leaf → Prop} : ∀ {js : List Job} {n m : Node}, runAll n js = .ok m → Each P n → Each P m
  | [], n, m, h, hn => by cases h; exact hn
  | j :: js, n, m, h, hn => by
    simp only [runAll] at h
    cases hj : j.run n with
    | error e => rw [hj] at h; cases h
    | ok n' =>
      rw [hj] at h
      refine runAll_each h ?_
      cases j with
      | warp tf d a => cases hj; exact hn
      | crop sl => cases hj; exact hn
      | padded y0 y1 x0 x1 pad =>
        obtain ⟨a, b, e, f, rfl | ⟨x, y, d, al, rfl⟩⟩ := paddedCrop_form hj
        · exact hn
        · exact hn
      | overview k => cases hj; exact hn
      | dequant q => cases hj; exact hn

theorem runAll_nchan : ∀ {js : List Job} {n m : Node}, runAll n js = .ok m → m.nchan = n.nchan ∧ m.channels = n.channels
  | [], n, m, h => by cases h; exact ⟨rfl, rfl⟩
  | j :: js, n, m, h => by
    simp only [runAll] at h
    cases hj : j.run n with
    | error e => rw [hj] at h; cases h
    | ok n' =>
      rw [hj] at h
      obtain ⟨h1, h2⟩ := runAll_nchan h
      suffices n'.nchan = n.nchan ∧ n'.channels = n.channels from ⟨h1.trans this.1, h2.trans this.2⟩
      cases j with
      | warp tf d a => cases hj; exact ⟨rfl, rfl⟩
      | crop sl => cases hj; exact ⟨rfl, rfl⟩
      | padded y0 y1 x0 x1 pad =>
        obtain ⟨a, b, e, f, rfl | ⟨x, y, d, al, rfl⟩⟩ := paddedCrop_form hj
        · exact ⟨rfl, rfl⟩
        · exact ⟨rfl, rfl⟩
      | overview k => cases hj; exact ⟨rfl, rfl⟩
      | dequant q => cases hj; exact ⟨rfl, rfl⟩

/-- If the result of the operations has an array, then the image has one. -/
theorem runAll_fin : ∀ {js : List Job} {n m : Node} {i : Img V}, runAll n js = .ok m → fin E m = .ok i →
    ∃ j, fin E n = .ok j
  | [], n, m, i, h, hi => by cases h; exact ⟨i, hi⟩
  | j :: js, n, m, i, h, hi => by
    simp only [runAll] at h
    cases hj : j.run n with
    | error e => rw [hj] at h; cases h
    | ok n' =>
      rw [hj] at h
      obtain ⟨i', hi'⟩ := runAll_fin h hi
      cases hn : fin E n with
      | ok a => exact ⟨a, rfl⟩
      | error e =>
        exfalso
        cases j with
        | warp tf d a => cases hj; simp only [mkWarp, fin, hn] at hi'; cases hi'
        | crop sl => cases hj; simp only [fin, hn] at hi'; cases hi'
        | padded y0 y1 x0 x1 pad =>
          obtain ⟨a, b, e, f, rfl | ⟨x, y, d, al, rfl⟩⟩ := paddedCrop_form hj
          · simp only [fin, hn] at hi'; cases hi'
          · simp only [fin, hn] at hi'; cases hi'
        | overview k => cases hj; simp only [mkOverview, fin, hn] at hi'; cases hi'
        | dequant q => cases hj; simp only [mkDequant, fin, hn] at hi'; cases hi'

/-- C84 on pixels, selection by positions: the arrays of the two orders are the same.  (Nearest neighbour warps must be
aligned with the axes.) -/
theorem C84_arrays (hS : Env.Shaped E) (hE : Env.Even E) {n : Node} (hb : Built n) (hm : Each E.Matches n)
    {c : List Nat} (hc : ∀ i ∈ c, i < n.nchan) {js : List Job} (hj : CalmJobs js)
    (ho : ∀ k, Job.overview k ∈ js → Env.EvenOverviews E) {m m' t u : Node} (h1 : runAll n js = .ok m) (hbm : Built m)
    (h2 : takeIdx m c = .ok u) (h3 : takeIdx n c = .ok t) (h4 : runAll t js = .ok m') {i : Img V}
    (hi : fin E m = .ok i) : ∃ a b, fin E u = .ok a ∧ fin E m' = .ok b ∧ a.Same b := by
  obtain ⟨e1, -⟩ := runAll_nchan h1
  obtain ⟨i0, hi0⟩ := runAll_fin h1 hi
  obtain ⟨-, -, a, ha, a1, a2, a3, a4⟩ := C27_take_by_index hS hbm (runAll_each h1 hm) hi
    (fun x hx => by rw [e1]; exact hc x hx) h2
  obtain ⟨-, t2, b0, hb0, b1, b2, b3, b4⟩ := C27_take_by_index hS hb hm hi0 hc h3
  have hst : t.nchan = c.length := by rw [← den_length, (takeIdx_ok n hb.ok.1 c t hc h3).den]; simp [pick]
  have hsn := fin_shape hS n hb.ok.1 hb.ok.2 hm i0 hi0
  have hT : Taken E (fun k m => c[k]? = some m) n t := {
    dsize := t2
    nchan := fun k x hk => by
      obtain ⟨hlt, e⟩ := List.getElem?_eq_some_iff.1 hk
      refine ⟨hc x (e ▸ List.getElem_mem hlt), ?_⟩
      rw [hst]
      exact hlt
    fin := fun i' hi' => by
      rw [hi0] at hi'
      cases hi'
      refine ⟨b0, hb0, b1, b2, b3.trans hst.symm, fun k x hk => ?_⟩
      obtain ⟨hlt, e⟩ := List.getElem?_eq_some_iff.1 hk
      exact ⟨b1, b2, by rw [b3]; exact hlt, by rw [hsn.n]; exact hc x (e ▸ List.getElem_mem hlt), b4 k x hk⟩ }
  rcases carried_runAll (taken_carried hS hE _ hj ho) js (fun _ h => h) hT with ⟨e, g, _⟩ | ⟨x, x', g1, g2, g3⟩
  · rw [h1] at g; cases g
  rw [h1] at g1
  rw [h4] at g2
  cases g1
  cases g2
  obtain ⟨b, hb', k1, k2, k3, k4⟩ := g3.fin i hi
  refine ⟨a, b, ha, hb', a1.trans k1.symm, a2.trans k2.symm, ?_, fun y x k hy hx hk => ?_⟩
  · rw [k3, (runAll_nchan h4).1, hst, a3]
  · have hk' : c[k]? = some (c[k]'(by omega)) := List.getElem?_eq_getElem (by omega)
    rw [a4 k _ hk' y x (by omega) (by omega), (k4 k _ hk').px y x (by omega) (by omega)]

/-- C84 on pixels, selection by (distinct) codes: the arrays of the two orders have the same shape and the same channel
for every code that the image has. -/
theorem C84_codes (hS : Env.Shaped E) (hE : Env.Even E) {n : Node} (hb : Built n) (hm : Each E.Matches n)
    {names : List Str} (hn : n.channels = some names) (hd : names.Nodup) {codes : List Str} {policy : Policy}
    {js : List Job} (hj : CalmJobs js) (ho : ∀ k, Job.overview k ∈ js → Env.EvenOverviews E) {m m' t u : Node}
    (h1 : runAll n js = .ok m) (hbm : Built m) (h2 : takeNames m codes policy = .ok u)
    (h3 : takeNames n codes policy = .ok t) (h4 : runAll t js = .ok m') {i : Img V} (hi : fin E m = .ok i) :
    m'.dsize = u.dsize ∧ m'.channels = some codes ∧ u.channels = some codes ∧
    ∃ a b, fin E u = .ok a ∧ fin E m' = .ok b ∧ a.h = b.h ∧ a.w = b.w ∧ a.n = b.n ∧
      ∀ (k : Nat) code, codes[k]? = some code → code ∈ names → ∀ y x, y < a.h → x < a.w →
        a.px y x k = b.px y x k := by
  obtain ⟨e1, e2⟩ := runAll_nchan h1
  obtain ⟨i0, hi0⟩ := runAll_fin h1 hi
  obtain ⟨a0, a9, a, ha, a1, a2, a3, a4⟩ := C27_take_by_code_partial hS hbm (runAll_each h1 hm) hi (e2.trans hn) hd h2
  obtain ⟨t1, t2, b0, hb0, b1, b2, b3, b4⟩ := C27_take_by_code_partial hS hb hm hi0 hn hd h3
  have hbt : Built t := .takeNames n t codes policy hb h3
  have hst : t.nchan = codes.length := (channels_length t codes hbt.ok.1 t1).symm
  have hsn := fin_shape hS n hb.ok.1 hb.ok.2 hm i0 hi0
  have hT : Taken E (fun k m => ∃ code, codes[k]? = some code ∧ names[m]? = some code) n t := {
    dsize := t2
    nchan := by
      rintro k x ⟨code, hk, hx⟩
      rw [hst, ← channels_length n names hb.ok.1 hn]
      exact ⟨(List.getElem?_eq_some_iff.1 hx).1, (List.getElem?_eq_some_iff.1 hk).1⟩
    fin := fun i' hi' => by
      rw [hi0] at hi'
      cases hi'
      refine ⟨b0, hb0, b1, b2, b3.trans hst.symm, ?_⟩
      rintro k x ⟨code, hk, hx⟩
      refine ⟨b1, b2, ?_, ?_, fun y z hy hz => (b4 k code hk y z hy hz).1 x hx⟩
      · rw [b3]; exact (List.getElem?_eq_some_iff.1 hk).1
      · rw [hsn.n, ← channels_length n names hb.ok.1 hn]; exact (List.getElem?_eq_some_iff.1 hx).1 }
  rcases carried_runAll (taken_carried hS hE _ hj ho) js (fun _ h => h) hT with ⟨e, g, _⟩ | ⟨x, x', g1, g2, g3⟩
  · rw [h1] at g; cases g
  rw [h1] at g1
  rw [h4] at g2
  cases g1
  cases g2
  obtain ⟨b, hb', k1, k2, k3, k4⟩ := g3.fin i hi
  refine ⟨g3.dsize.trans a9.symm, (runAll_nchan h4).2.trans t1, a0, a, b, ha, hb', a1.trans k1.symm, a2.trans k2.symm,
    ?_, fun k code hk hc y x hy hx => ?_⟩
  · rw [k3, (runAll_nchan h4).1, hst, a3]
  · obtain ⟨p, hp⟩ := List.getElem?_of_mem hc
    rw [(a4 k code hk y x (by omega) (by omega)).1 p hp, (k4 k p ⟨code, hk, hp⟩).px y x (by omega) (by omega)]

theorem runAll_later {t : Node} : ∀ {js : List Job} {n m : Node}, Later t n → runAll n js = .ok m → Later t m
  | [], n, m, hl, h => by cases h; exact hl
  | j :: js, n, m, hl, h => by
    simp only [runAll] at h
    cases hj : j.run n with
    | error e => rw [hj] at h; cases h
    | ok n' =>
      rw [hj] at h
      refine runAll_later ?_ h
      cases j with
      | warp tf d a => cases hj; exact .warp n tf d a hl
      | crop sl => exact .crop n n' sl hl hj
      | padded y0 y1 x0 x1 pad => exact .padded n n' y0 y1 x0 x1 pad hl hj
      | overview k => cases hj; exact .overview n k hl
      | dequant q => cases hj; exact .dequant n q hl

/-- C84 on pixels, selection by codes, with codes that the image does not have: the arrays are the same, unless a border
value is given. -/
theorem C84_missing_codes (hS : Env.Shaped E) (hE : Env.Even E) (hN : Env.KeepsNan E) {n : Node} (hb : Built n)
    (hm : Each E.Matches n) {names : List Str} (hn : n.channels = some names) (hd : names.Nodup) {codes : List Str}
    {policy : Policy} {js : List Job} (hj : CalmJobs js) (ho : ∀ k, Job.overview k ∈ js → Env.EvenOverviews E)
    {m m' t u : Node} (h1 : runAll n js = .ok m) (hbm : Built m) (h2 : takeNames m codes policy = .ok u)
    (h3 : takeNames n codes policy = .ok t) (h4 : runAll t js = .ok m') (hq : ∀ a ∈ warpAlgos m', a.border = none)
    {i : Img V} (hi : fin E m = .ok i) : ∃ a b, fin E u = .ok a ∧ fin E m' = .ok b ∧ a.Same b := by
  obtain ⟨-, -, -, a, b, ha, hb', s1, s2, s3, s4⟩ := C84_codes hS hE hb hm hn hd hj ho h1 hbm h2 h3 h4 hi
  obtain ⟨-, e2⟩ := runAll_nchan h1
  obtain ⟨-, -, a', ha', a1, a2, a3, a4⟩ :=
    C27_take_by_code_partial hS hbm (runAll_each h1 hm) hi (e2.trans hn) hd h2
  rw [ha] at ha'
  cases ha'
  refine ⟨a, b, ha, hb', s1, s2, s3, fun y x k hy hx hk => ?_⟩
  have hk' : codes[k]? = some (codes[k]'(by omega)) := List.getElem?_eq_getElem (by omega)
  by_cases hc : codes[k]'(by omega) ∈ names
  · exact s4 k _ hk' hc y x hy hx
  · rw [(a4 k _ hk' y x (by omega) (by omega)).2 hc]
    have hmt : Each E.Matches t := takeNamesIf_stable
      (Stable.take (stable_each E.Matches (fun _ _ _ h => by cases h))) hb.ok.1 hm ⟨hm, trivial⟩ h3
    refine (fin_nan hS hN m' hq (runAll_each h4 hmt) k ?_ b hb' (by omega) y x (by omega) (by omega)).symm
    intro c hc'
    have g1 := (C69_take hb hn hd h3 hk').2 hc
    have g2 : ((src m').map Src.leaf)[k]? = ((src t).map Src.leaf)[k]? := by rw [later_leafs (runAll_later .refl h4)]
    rw [List.getElem?_map, List.getElem?_map, hc', g1] at g2
    simpa using g2

/-- What a selection keeps of an image. -/
structure Kept (n t : Node) : Prop where
  dsize : t.dsize = n.dsize
  built : Built n → Built t
  plain : NoOv n → NoOv t
  slack : NoOv n ∧ NoSlack n → NoSlack t
  pix : Pix n → Pix t

theorem kept_carried (js : List Job) : Carried Kept js where
  dsize h := h.dsize
  warp {n t} tf d _ a _ h := {
    dsize := rfl
    built := fun hb => by
      rw [built_iff] at hb ⊢
      have := (built_iff t).1 (h.built ((built_iff n).2 ⟨hb.1.1, hb.2.2⟩))
      exact ⟨⟨this.1, hb.1.2⟩, hb.2.1, this.2⟩
    plain := h.plain
    slack := fun hs => ⟨hs.2.1, h.slack ⟨hs.1, hs.2.2⟩⟩
    pix := fun hp => ⟨hp.1, hp.2.1, h.pix hp.2.2⟩ }
  crop {n t} y0 y1 x0 x1 h := {
    dsize := rfl
    built := fun hb => by
      rw [built_iff] at hb ⊢
      have := (built_iff t).1 (h.built ((built_iff n).2 ⟨hb.1.1, hb.2.1⟩))
      refine ⟨⟨this.1, hb.1.2.1, hb.1.2.2.1, trivial⟩, this.2, ?_⟩
      rw [h.dsize]
      exact hb.2.2
    plain := h.plain
    slack := h.slack
    pix := h.pix }
  overview {n t} k d _ h := {
    dsize := rfl
    built := fun hb => by
      rw [built_iff] at hb ⊢
      have := (built_iff t).1 (h.built ((built_iff n).2 ⟨hb.1, hb.2.1⟩))
      refine ⟨this.1, this.2, hb.2.2.trans ?_⟩
      have e := h.dsize
      show (ovSize k n.dsize.1, ovSize k n.dsize.2) = (ovSize k t.dsize.1, ovSize k t.dsize.2)
      rw [e]
    plain := fun ho => ho.elim
    slack := fun hs => hs.1.elim
    pix := fun hp => hp.elim }
  dequant {n t} q d h := {
    dsize := rfl
    built := fun hb => by
      rw [built_iff] at hb ⊢
      have := (built_iff t).1 (h.built ((built_iff n).2 ⟨hb.1, hb.2.1⟩))
      exact ⟨this.1, this.2, hb.2.2.trans h.dsize.symm⟩
    plain := h.plain
    slack := h.slack
    pix := h.pix }

theorem kept_take {n t : Node} (hb : Built n) {c : List Nat} (hc : ∀ i ∈ c, i < n.nchan) (h : takeIdx n c = .ok t) :
    Kept n t where
  dsize := (takeIdx_ok n hb.ok.1 c t hc h).dsize
  built := fun hb => .take n t c hb hc h
  plain := fun ho => takeIdx_stable noOv_take n hb.ok.1 ho c t hc h
  slack := fun hs => (takeIdx_stable (Stable.take stable_noSlack) n hb.ok.1 hs c t hc h).2
  pix := fun hp => takeIdx_stable pix_take n hb.ok.1 hp c t hc h

theorem Kept.sharp {H : Heur} {n t : Node} (h : Kept n t) (hs : Sharp H n) : Sharp H t :=
  hs.imp_right fun hs => ⟨hs.1, h.plain hs.2.1, h.slack hs.2⟩

/-- Operations after a selection keep what they keep on the whole image. -/
theorem kept_runAll {n t m m' : Node} {js : List Job} (h : Kept n t) (h1 : runAll n js = .ok m)
    (h2 : runAll t js = .ok m') : Kept m m' := by
  rcases carried_runAll (kept_carried js) js (fun _ h => h) h with ⟨e, g, _⟩ | ⟨w, w', g1, g2, g3⟩
  · rw [h1] at g; cases g
  · rw [h1] at g1
    rw [h2] at g2
    cases g1
    cases g2
    exact g3

/-- C84, optimized: every channel that shows something comes from the same channel of the same file through the same
total transform and the same dequantizations in both orders. -/
theorem C84_optimized (H : Heur) {n : Node} (hb : Built n) {c : List Nat} (hc : ∀ i ∈ c, i < n.nchan)
    {js : List Job} {m m' t u : Node} (h1 : runAll n js = .ok m) (hbm : Built m) (h2 : takeIdx m c = .ok u)
    (h3 : takeIdx n c = .ok t) (h4 : runAll t js = .ok m') (hH : Sharp H m) {f f' : Nat} {o o' : Node}
    (ho : opt H f u = .ok o) (ho' : opt H f' m' = .ok o') {k : Nat} {x : Chan} (hx : (den u)[k]? = some x)
    (hv : Visible x) : ∃ y y', (den o)[k]? = some y ∧ (den o')[k]? = some y' ∧ y.id = y'.id ∧ y.ch = y'.ch ∧
      y.tf = y'.tf ∧ y.qs = y'.qs := by
  rcases C84_announced hb hc h3 js with ⟨e, g, _⟩ | ⟨w, w', g1, g2, g3⟩
  · rw [h1] at g; cases g
  rw [h1] at g1
  rw [h4] at g2
  cases g1
  cases g2
  obtain ⟨-, -, -, hden, -⟩ := g3 u hbm h2
  have hcm : ∀ i ∈ c, i < m.nchan := fun i hi => by rw [(runAll_nchan h1).1]; exact hc i hi
  have hk := kept_take hbm hcm h2
  have hk' := kept_runAll (kept_take hb hc h3) h1 h4
  obtain ⟨y, hy, y1, y2, y3, y4, _⟩ := C36_sources_partial H (hk.sharp hH) (hk.built hbm) f ho k x hx hv
  obtain ⟨z, hz, z1, z2, z3, z4, _⟩ := C36_sources_partial H (hk'.sharp hH) (hk'.built hbm) f' ho' k x (hden ▸ hx) hv
  exact ⟨y, z, hy, hz, y1.trans z1.symm, y2.trans z2.symm, y3.trans z3.symm, y4.trans z4.symm⟩

/-- Only crops and dequantizations. -/
def FlatJobs (js : List Job) : Prop := ∀ j ∈ js, (∃ sl, j = .crop sl) ∨ ∃ q, j = .dequant q

theorem runAll_flat : ∀ {js : List Job} {n m : Node}, FlatJobs js → runAll n js = .ok m → Built n → Flat n →
    Built m ∧ Flat m
  | [], n, m, _, h, hb, hf => by cases h; exact ⟨hb, hf⟩
  | j :: js, n, m, hj, h, hb, hf => by
    have hjs : FlatJobs js := fun j hj' => hj j (by simp [hj'])
    simp only [runAll] at h
    rcases hj j (by simp) with ⟨sl, rfl⟩ | ⟨q, rfl⟩
    · obtain ⟨ysl, xsl⟩ := sl
      exact runAll_flat hjs h (.crop n _ (some (ysl, xsl)) none hb trivial rfl) hf
    · exact runAll_flat hjs h (.dequant n q hb) hf

/-- C84 for `finalize()` with its default, which optimizes.  Missing: warps, paddings and overviews. -/
theorem C84_finalize_flat_partial (H : Heur) (hS : Env.Shaped E) (hE : Env.Even E) (hq : ∀ q, E.deq q E.nan = E.nan)
    {n : Node} (hb : Built n) (hf : Flat n) (hm : Each E.Matches n) {c : List Nat} (hc : ∀ i ∈ c, i < n.nchan)
    {js : List Job} (hj : FlatJobs js) {m m' t u : Node} (h1 : runAll n js = .ok m) (h2 : takeIdx m c = .ok u)
    (h3 : takeIdx n c = .ok t) (h4 : runAll t js = .ok m') {f f' : Nat} {o o' : Node} (ho1 : opt H f u = .ok o)
    (ho2 : opt H f' m' = .ok o') : ∃ a b, finalize H E f u = .ok a ∧ finalize H E f' m' = .ok b ∧ a.Same b := by
  have hc' : ∀ i ∈ c, i < m.nchan := fun i hi => by rw [(runAll_nchan h1).1]; exact hc i hi
  obtain ⟨hbm, hfm⟩ := runAll_flat hj h1 hb hf
  obtain ⟨hbm', hfm'⟩ := runAll_flat hj h4 (.take n t c hb hc h3)
    (takeIdx_stable (Stable.take stable_flat) n hb.ok.1 hf c t hc h3)
  have hbu : Built u := .take m u c hbm hc' h2
  have hfu : Flat u := takeIdx_stable (Stable.take stable_flat) m hbm.ok.1 hfm c u hc' h2
  have hs := stable_each E.Matches (fun _ _ _ h => by cases h)
  have hmm := runAll_each h1 hm
  have hmu : Each E.Matches u := takeIdx_stable (Stable.take hs) m hbm.ok.1 hmm c u hc' h2
  have hmt : Each E.Matches t := takeIdx_stable (Stable.take hs) n hb.ok.1 hm c t hc h3
  obtain ⟨i, ei, _⟩ := fin_den (Env.moved_ok hq) m hbm.ok.1 hbm.ok.2 hfm.pix hmm
  rw [fin_flat E m hfm] at ei
  have hcalm : CalmJobs js := fun tf d a h => by rcases hj _ h with ⟨_, e⟩ | ⟨_, e⟩ <;> cases e
  obtain ⟨a, b, ha, hb', s⟩ := C84_arrays hS hE hb hm hc hcalm
    (fun k hk => by rcases hj _ hk with ⟨_, e⟩ | ⟨_, e⟩ <;> cases e) h1 hbm h2 h3 h4 ei
  obtain ⟨a1, a2, g1, g2, g3⟩ := C36_arrays_flat_partial H E hbu hfu hmu hq f ho1
  obtain ⟨b1, b2, k1, k2, k3⟩ := C36_arrays_flat_partial H E hbm' hfm' (runAll_each h4 hmt) hq f' ho2
  rw [ha] at g1
  rw [hb'] at k1
  cases g1
  cases k1
  refine ⟨a2, b2, g2, k2, (g3.h.symm.trans s.h).trans k3.h, (g3.w.symm.trans s.w).trans k3.w,
    (g3.n.symm.trans s.n).trans k3.n, fun y x k hy hx hk => ?_⟩
  rw [← g3.h] at hy
  rw [← g3.w] at hx
  rw [← g3.n] at hk
  rw [← g3.px y x k hy hx hk, s.px y x k hy hx hk, k3.px y x k (s.h ▸ hy) (s.w ▸ hx) (s.n ▸ hk)]

/-! #### cases -/

theorem look_copied {g : ℚ × ℚ → ℚ × ℚ} {d : Nat × Nat} {k m : Nat} {i j : Img (Option Nat)} (h : Copied k m i j) :
    Copied k m (look g d i) (look g d j) := by
  refine ⟨rfl, rfl, h.out, h.inp, fun y x _ _ => ?_⟩
  simp only [look, h.h, h.w]
  split
  · exact h.px _ _ (by omega) (by omega)
  · rfl

theorem looking_even (img : Nat → Img (Option Nat)) : Env.Even (looking img) where
  warp := fun _ _ _ _ _ _ _ h => look_copied h
  resize := fun d k m i j h => by
    simp only [looking, h.h, h.w]; exact look_copied h

theorem looking_evenOverviews (img : Nat → Img (Option Nat)) : Env.EvenOverviews (looking img) := by
  intro s t o k m i j h
  simp only [looking, h.h, h.w]
  exact look_copied h

/-- A few operations. -/
def fewJobs : List Job :=
  [.warp (.scale 2) none .default, .crop ((some 0, some 3), (some 1, none)), .padded 0 2 (-1) 2 ((1, 0), (0, 1)),
    .overview 1, .dequant ⟨0, 1, 0, 255, none⟩]

example : CalmJobs fewJobs := by
  intro tf d a h hn
  simp only [fewJobs, List.mem_cons, Job.warp.injEq, List.not_mem_nil, or_false, reduceCtorEq, false_or] at h
  obtain ⟨-, -, rfl⟩ := h
  cases hn

/-- Both orders work, and the arrays are not empty. -/
example : ∃ m u t m' : Node, runAll (.leaf bandLeaf) fewJobs = .ok m ∧ takeIdx m [1] = .ok u ∧
    takeIdx (.leaf bandLeaf) [1] = .ok t ∧ runAll t fewJobs = .ok m' ∧
    ∃ i j, fin (looking (twoBands fun y x => some (y + x))) u = .ok i ∧
      fin (looking (twoBands fun y x => some (y + x))) m' = .ok j ∧
      (i.h, i.w, i.n) = (2, 2, 1) ∧ i.px 0 1 0 = some 1 ∧ j.px 0 1 0 = some 1 := by
  obtain ⟨m, h1, h2⟩ := holds_ok (x := runAll (.leaf bandLeaf) fewJobs)
    (f := fun m => holds (takeIdx m [1]) fun u => holds (takeIdx (.leaf bandLeaf) [1]) fun t =>
      holds (runAll t fewJobs) fun m' => holds (fin (looking (twoBands fun y x => some (y + x))) u) fun i =>
        holds (fin (looking (twoBands fun y x => some (y + x))) m') fun j =>
          decide ((i.h, i.w, i.n) = (2, 2, 1) ∧ i.px 0 1 0 = some 1 ∧ j.px 0 1 0 = some 1)) (by decide +kernel)
  obtain ⟨u, h3, h4⟩ := holds_ok h2
  obtain ⟨t, h5, h6⟩ := holds_ok h4
  obtain ⟨m', h7, h8⟩ := holds_ok h6
  obtain ⟨i, h9, h10⟩ := holds_ok h8
  obtain ⟨j, h11, h12⟩ := holds_ok h10
  exact ⟨m, u, t, m', h1, h3, h5, h7, i, j, h9, h11, by simpa using h12⟩

/-- C84, what fails with nearest neighbours: warping by 90 degrees and then selecting the first channel shows other
pixels than selecting it and then warping, since all channels together decide whether the transform or its inverse is
used. -/
theorem C84_nearest_violated :
    let a : Algo := { Algo.default with interp := .nearest }
    let G := looking (twoBands fun _ x => if x = 0 then none else some 5)
    ∃ u t : Node, takeIdx (turnedRow a) [0] = .ok u ∧ takeIdx (.leaf bandLeaf) [0] = .ok t ∧
    (∃ i, fin G u = .ok i ∧ i.px 0 0 0 = some 1) ∧
    ∃ j, fin G (mkWarp t ⟨0, -1, 2, 1, 0, 0⟩ (some (2, 1)) a) = .ok j ∧ j.px 0 0 0 = some 0 := by
  intro a G
  obtain ⟨u, h1, h2⟩ := holds_ok (x := takeIdx (turnedRow { Algo.default with interp := .nearest }) [0])
    (f := fun u => holds (fin (looking (twoBands fun _ x => if x = 0 then none else some 5)) u)
      fun i => decide (i.px 0 0 0 = some 1)) (by decide +kernel)
  obtain ⟨t, h3, h4⟩ := holds_ok (x := takeIdx (.leaf bandLeaf) [0])
    (f := fun t => holds (fin (looking (twoBands fun _ x => if x = 0 then none else some 5))
      (mkWarp t ⟨0, -1, 2, 1, 0, 0⟩ (some (2, 1)) { Algo.default with interp := .nearest }))
      fun i => decide (i.px 0 0 0 = some 0)) (by decide +kernel)
  obtain ⟨i, h5, h6⟩ := holds_ok h2
  obtain ⟨j, h7, h8⟩ := holds_ok h4
  exact ⟨u, t, h1, h3, ⟨i, h5, by simpa using h6⟩, j, h7, by simpa using h8⟩

end Verif.Props
