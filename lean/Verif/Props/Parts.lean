/-
C89: operations on a concat are operations on its parts.
-/
import Verif.Props.Same
import Verif.Props.Select

namespace Verif.Props

open Verif.Tree Verif.Helpers Verif.Tree.Node

variable {V : Type} {H : Heur} {E : Env V}

/-! ### what is announced -/

/-- `t` announces the channels from `o` on of `n`, and can be made if `n` can. -/
structure Held (o : Nat) (n t : Node) : Prop where
  dsize : t.dsize = n.dsize
  den : den t = ((den n).drop o).take t.nchan
  src : src t = ((src n).drop o).take t.nchan
  ok : WF n ∧ Fit n → WF t ∧ Fit t

theorem held_carried (o : Nat) (js : List Job) : Carried (Held o) js where
  dsize h := h.dsize
  warp tf d _ a _ h := {
    dsize := rfl
    den := by simp only [Tree.den]; rw [h.den]; simp only [List.map_take, List.map_drop]; rfl
    src := by rw [src_warp, src_warp]; exact h.src
    ok := fun ⟨⟨w1, w2⟩, f1, f2⟩ => ⟨⟨(h.ok ⟨w1, f2⟩).1, w2⟩, f1, (h.ok ⟨w1, f2⟩).2⟩ }
  crop y0 y1 x0 x1 h := {
    dsize := rfl
    den := by simp only [Tree.den]; rw [h.den]; simp only [List.map_take, List.map_drop]; rfl
    src := by rw [src_crop, src_crop]; exact h.src
    ok := fun ⟨⟨w1, w2, w3, w4⟩, f1, f2, f3, f4, f5⟩ =>
      ⟨⟨(h.ok ⟨w1, f1⟩).1, w2, w3, trivial⟩, (h.ok ⟨w1, f1⟩).2, f2, by rw [h.dsize]; exact f3, f4,
        by rw [h.dsize]; exact f5⟩ }
  overview k d _ h := {
    dsize := rfl
    den := by simp only [Tree.den]; rw [h.den]; simp only [List.map_take, List.map_drop]; rfl
    src := by rw [src_overview, src_overview]; exact h.src
    ok := fun ⟨w, f1, f2⟩ => ⟨(h.ok ⟨w, f1⟩).1, (h.ok ⟨w, f1⟩).2, by rw [f2]; simp only [mkOverview, h.dsize]; rfl⟩ }
  dequant q d h := {
    dsize := rfl
    den := by simp only [Tree.den]; rw [h.den]; simp only [List.map_take, List.map_drop]; rfl
    src := by rw [src_dequant, src_dequant, h.src]; simp only [List.map_take, List.map_drop]; rfl
    ok := fun ⟨w, f1, f2⟩ => ⟨(h.ok ⟨w, f1⟩).1, (h.ok ⟨w, f1⟩).2, by rw [f2, h.dsize]⟩ }

theorem glue {α : Type} : ∀ (xs : List (List α)) (ks : List Nat) (l : List α), xs.length = ks.length →
    (∀ o (h : o < xs.length) (h' : o < ks.length), xs[o] = (l.drop (ks.take o).sum).take ks[o]) →
    xs.flatten = l.take ks.sum
  | [], [], l, _, _ => by simp
  | x :: xs, k :: ks, l, e, h => by
    have h0 := h 0 (by simp) (by simp)
    simp only [List.getElem_cons_zero, List.take_zero, List.sum_nil, List.drop_zero] at h0
    have := glue xs ks (l.drop k) (by simpa using e) fun o h1 h2 => by
      have := h (o + 1) (by simpa using h1) (by simpa using h2)
      simp only [List.getElem_cons_succ, List.take_succ_cons, List.sum_cons] at this
      rw [this, List.drop_drop]
    rw [List.flatten_cons, this, h0, List.sum_cons, List.take_add]

/-- Part `o` of a concat. -/
theorem held_part {ps : List Node} {d : Int × Int} (hd : ∀ p ∈ ps, p.dsize = d) {o : Nat} (ho : o < ps.length) :
    Held ((ps.take o).map nchan).sum (.concat ps d) ps[o] where
  dsize := hd _ (List.getElem_mem ho)
  den := by
    have e : ps.flatMap Tree.den = (ps.take o).flatMap Tree.den ++ (Tree.den ps[o] ++ (ps.drop (o + 1)).flatMap Tree.den) := by
      conv => lhs; rw [← List.take_append_drop o ps, List.drop_eq_getElem_cons ho]
      rw [List.flatMap_append, List.flatMap_cons]
    have hl : ∀ qs : List Node, (qs.flatMap Tree.den).length = (qs.map nchan).sum := by
      intro qs
      induction qs with
      | nil => rfl
      | cons q qs ih => simp [ih, den_length]
    rw [Tree.den, denL_eq]
    rw [e, List.drop_left' (hl _), List.take_left' (den_length _)]
  src := by
    have e : ps.flatMap Tree.src = (ps.take o).flatMap Tree.src ++ (Tree.src ps[o] ++ (ps.drop (o + 1)).flatMap Tree.src) := by
      conv => lhs; rw [← List.take_append_drop o ps, List.drop_eq_getElem_cons ho]
      rw [List.flatMap_append, List.flatMap_cons]
    have hl : ∀ qs : List Node, (qs.flatMap Tree.src).length = (qs.map nchan).sum := by
      intro qs
      induction qs with
      | nil => rfl
      | cons q qs ih => simp [ih, src_length]
    rw [src_concat, srcL_eq]
    rw [e, List.drop_left' (hl _), List.take_left' (src_length _)]
  ok := by
    rintro ⟨⟨_, w⟩, _, f⟩
    exact ⟨((WFL_iff _ _).1 w _ (List.getElem_mem ho)).1, (FitL_iff _).1 f _ (List.getElem_mem ho)⟩

theorem forall₂_of {α β : Type} {R : α → β → Prop} : ∀ {as : List α}, (∀ a ∈ as, ∃ b, R a b) →
    ∃ bs, List.Forall₂ R as bs
  | [], _ => ⟨[], .nil⟩
  | a :: as, h => by
    obtain ⟨b, hb⟩ := h a (by simp)
    obtain ⟨bs, hbs⟩ := forall₂_of (as := as) fun x hx => h x (by simp [hx])
    exact ⟨b :: bs, .cons hb hbs⟩

theorem runs_channels {js : List Job} {ps qs : List Node} (h : List.Forall₂ (fun p q => runAll p js = .ok q) ps qs) :
    qs.map nchan = ps.map nchan ∧ channelsL qs = channelsL ps := by
  induction h with
  | nil => exact ⟨rfl, rfl⟩
  | cons h _ ih =>
    obtain ⟨h1, h2⟩ := runAll_nchan h
    simp only [List.map_cons, channelsL, h1, h2, ih.1, ih.2, true_and]

/-- **C89**: warping, cropping, padding, dequantizing a concat or taking overviews of it, any number of times, raises
exactly if the same operations on one (and so on any) of the parts raise, with the same exception.  Otherwise the results for
the parts can be concatenated again, and the two results announce the same: size, channels, number of channels, and the
sources, dequantizations and transforms of the channels. -/
theorem C89_announced {ps : List Node} {n : Node} (hn : mkConcat ps = .ok n) (js : List Job) :
    (∃ e, runAll n js = .error e ∧ ∀ p ∈ ps, runAll p js = .error e) ∨
    ∃ m qs c, runAll n js = .ok m ∧ List.Forall₂ (fun p q => runAll p js = .ok q) ps qs ∧ mkConcat qs = .ok c ∧
      c.dsize = m.dsize ∧ c.channels = m.channels ∧ c.nchan = m.nchan ∧ den c = den m ∧ src c = src m := by
  obtain ⟨d, rfl, hne, hd⟩ := mkConcat_ok hn
  have run := fun o (ho : o < ps.length) => carried_runAll (held_carried _ js) js (fun _ h => h) (held_part hd ho)
  cases hm : runAll (.concat ps d) js with
  | error e =>
    refine .inl ⟨e, rfl, fun p hp => ?_⟩
    obtain ⟨o, ho, rfl⟩ := List.getElem_of_mem hp
    rcases run o ho with ⟨e', h1, h2⟩ | ⟨x, y, h1, _⟩
    · rw [hm] at h1
      cases h1
      exact h2
    · rw [hm] at h1; cases h1
  | ok m =>
    have step : ∀ o (ho : o < ps.length), ∃ q, runAll ps[o] js = .ok q ∧ Held ((ps.take o).map nchan).sum m q := by
      intro o ho
      rcases run o ho with ⟨e', h1, h2⟩ | ⟨x, y, h1, h2, h3⟩
      · rw [hm] at h1; cases h1
      · rw [hm] at h1
        cases h1
        exact ⟨y, h2, h3⟩
    obtain ⟨qs, hq⟩ := forall₂_of (R := fun p q => runAll p js = .ok q) (as := ps) fun p hp => by
      obtain ⟨o, ho, rfl⟩ := List.getElem_of_mem hp
      obtain ⟨q, h, _⟩ := step o ho
      exact ⟨q, h⟩
    have hlen := hq.length_eq
    have each : ∀ o (ho : o < qs.length), Held ((ps.take o).map nchan).sum m qs[o] := by
      intro o ho
      obtain ⟨q, h1, h2⟩ := step o (by omega)
      have := hq.get (i := o) (by omega) ho
      simp only [List.get_eq_getElem] at this
      rw [h1] at this
      cases this
      exact h2
    obtain ⟨c1, c2⟩ := runs_channels hq
    obtain ⟨m1, m2⟩ := runAll_nchan hm
    have hqne : qs ≠ [] := by
      rintro rfl
      exact hne (List.length_eq_zero_iff.1 hlen)
    have hqd : ∀ q ∈ qs, q.dsize = m.dsize := by
      intro q hq'
      obtain ⟨o, ho, rfl⟩ := List.getElem_of_mem hq'
      exact (each o ho).dsize
    refine .inr ⟨m, qs, .concat qs m.dsize, rfl, hq, mkConcat_same hqne hqd, rfl, ?_, ?_, ?_, ?_⟩
    · rw [m2]; exact c2
    · rw [m1]; simp only [Node.nchan, nchans_eq, c1]
    · rw [Tree.den, denL_eq, List.flatMap_def, glue (qs.map Tree.den) (qs.map nchan) (Tree.den m) (by simp)]
      · rw [List.take_of_length_le]
        rw [den_length, m1, c1, Node.nchan, nchans_eq]
      · intro o h1 h2
        simp only [List.getElem_map, ← List.map_take]
        have := (each o (by simpa using h1)).den
        rw [List.map_take, ← c1, ← List.map_take] at this
        exact this
    · rw [src_concat, srcL_eq, List.flatMap_def, glue (qs.map Tree.src) (qs.map nchan) (Tree.src m) (by simp)]
      · rw [List.take_of_length_le]
        rw [src_length, m1, c1, Node.nchan, nchans_eq]
      · intro o h1 h2
        simp only [List.getElem_map, ← List.map_take]
        have := (each o (by simpa using h1)).src
        rw [List.map_take, ← c1, ← List.map_take] at this
        exact this

/-! ### arrays -/

/-- Every channel of a concat belongs to a part. -/
theorem in_part : ∀ (ks : List Nat) (i : Nat), i < ks.sum → ∃ o, ∃ h : o < ks.length, ∃ k, k < ks[o] ∧
    i = (ks.take o).sum + k
  | [], i, h => by simp at h
  | a :: ks, i, h => by
    by_cases hi : i < a
    · exact ⟨0, by simp, i, hi, by simp⟩
    · obtain ⟨o, h1, k, h2, h3⟩ := in_part ks (i - a) (by simp at h; omega)
      exact ⟨o + 1, by simpa using h1, k, by simpa using h2, by simp; omega⟩

/-- C89 on pixels, without optimizing: the two results have the same array, or both have none.  (Nearest neighbour warps must
be aligned with the axes.) -/
theorem C89_arrays (hS : Env.Shaped E) (hE : Env.Even E) {ps : List Node} (hb : ∀ p ∈ ps, Built p)
    (hm : ∀ p ∈ ps, Each E.Matches p) {n : Node} (hn : mkConcat ps = .ok n) {js : List Job} (hj : CalmJobs js)
    (ho : ∀ k, Job.overview k ∈ js → Env.EvenOverviews E) {m : Node} (h1 : runAll n js = .ok m) (hbm : Built m)
    {qs : List Node} (hq : List.Forall₂ (fun p q => runAll p js = .ok q) ps qs) {c : Node} (hc : mkConcat qs = .ok c) :
    (∀ i, fin E m = .ok i → ∃ j, fin E c = .ok j ∧ i.Same j) ∧ ∀ j, fin E c = .ok j → ∃ i, fin E m = .ok i ∧ i.Same j := by
  obtain ⟨d, rfl, hne, hd⟩ := mkConcat_ok hn
  obtain ⟨d', rfl, hne', hd'⟩ := mkConcat_ok hc
  have hlen := hq.length_eq
  obtain ⟨c1, c2⟩ := runs_channels hq
  have hqs : ∀ o (h : o < ps.length), runAll ps[o] js = .ok (qs[o]'(by omega)) := fun o h => by
    have := hq.get (i := o) h (by omega)
    simpa only [List.get_eq_getElem] using this
  have held : ∀ o (h : o < ps.length), Held ((ps.take o).map nchan).sum m (qs[o]'(by omega)) := by
    intro o h
    rcases carried_runAll (held_carried _ js) js (fun _ h => h) (held_part hd h) with ⟨e, g, _⟩ | ⟨x, y, g1, g2, g3⟩
    · rw [h1] at g; cases g
    · rw [h1] at g1
      rw [hqs o h] at g2
      cases g1
      cases g2
      exact g3
  have hbq : ∀ q ∈ qs, Built q := by
    intro q hq'
    obtain ⟨o, h, rfl⟩ := List.getElem_of_mem hq'
    have := (held o (by omega)).ok hbm.ok
    exact built_of _ this.1 this.2
  have hmq : ∀ q ∈ qs, Each E.Matches q := by
    intro q hq'
    obtain ⟨p, hp, e⟩ := forall₂_mem_right hq hq'
    exact runAll_each e (hm p hp)
  have shape : ∀ p ∈ ps, ∀ a, fin E p = .ok a → HasShape p a := fun p hp a ha =>
    fin_shape hS p (hb p hp).ok.1 (hb p hp).ok.2 (hm p hp) a ha
  have shapeq : ∀ q ∈ qs, ∀ a, fin E q = .ok a → HasShape q a := fun p hp a ha =>
    fin_shape hS p (hbq p hp).ok.1 (hbq p hp).ok.2 (hmq p hp) a ha
  have parts : ∀ (xs : List Node) e i, fin E (.concat xs e) = .ok i → ∃ as, List.Forall₂ (fun p a => fin E p = .ok a) xs as := by
    intro xs e i h
    rw [fin] at h
    cases hx : finL E xs with
    | error e => rw [hx] at h; cases h
    | ok as => exact ⟨as, (finL_forall₂ E xs as).1 hx⟩
  have fwd : ∀ i, fin E m = .ok i → ∃ j, fin E (.concat qs d') = .ok j ∧ i.Same j := by
    intro i hi
    obtain ⟨i0, hi0⟩ := runAll_fin h1 hi
    obtain ⟨as, has⟩ := parts _ _ _ hi0
    obtain ⟨j0, hj0, n0, px0⟩ := C28_pixels E hS hb hm hn has
    rw [hi0] at hj0
    cases hj0
    have hla := has.length_eq
    have taken : ∀ o (h : o < ps.length), Taken E (fun k x => x = ((ps.take o).map nchan).sum + k ∧ k < ps[o].nchan)
        m (qs[o]'(by omega)) := by
      intro o h
      have fa : fin E ps[o] = .ok (as[o]'(by omega)) := by
        have := has.get (i := o) h (by omega)
        simpa only [List.get_eq_getElem] using this
      have sa := shape _ (List.getElem_mem h) _ fa
      obtain ⟨p1, p2, p3⟩ := px0 o (by omega)
      have inside : ∀ k, k < ps[o].nchan → ((ps.take o).map nchan).sum + k < (ps.map nchan).sum := by
        intro k hk
        have : ps.map nchan = (ps.take o).map nchan ++ (ps[o].nchan :: (ps.drop (o + 1)).map nchan) := by
          conv => lhs; rw [← List.take_append_drop o ps, List.drop_eq_getElem_cons h]
          rw [List.map_append, List.map_cons]
        rw [this, List.sum_append, List.sum_cons]
        omega
      have hT : Taken E (fun k x => x = ((ps.take o).map nchan).sum + k ∧ k < ps[o].nchan) (.concat ps d) ps[o] := {
        dsize := hd _ (List.getElem_mem h)
        nchan := by
          rintro k x ⟨rfl, hk⟩
          refine ⟨?_, hk⟩
          simp only [Node.nchan, nchans_eq]
          exact inside k hk
        fin := fun i' hi' => by
          rw [hi0] at hi'
          cases hi'
          refine ⟨_, fa, p1, p2, sa.n, ?_⟩
          rintro k x ⟨rfl, hk⟩
          exact ⟨p1, p2, by rw [sa.n]; exact hk, by rw [n0]; exact inside k hk,
            fun y x hy hx => (p3 k y x (by rw [sa.n]; exact hk) hy hx).symm⟩ }
      rcases carried_runAll (taken_carried hS hE _ hj ho) js (fun _ h => h) hT with ⟨e, g, _⟩ | ⟨x, y, g1, g2, g3⟩
      · rw [h1] at g; cases g
      · rw [h1] at g1
        rw [hqs o h] at g2
        cases g1
        cases g2
        exact g3
    obtain ⟨bs, hbs⟩ := forall₂_of (R := fun q a => fin E q = .ok a) (as := qs) fun q hq' => by
      obtain ⟨o, h, rfl⟩ := List.getElem_of_mem hq'
      obtain ⟨b, hb', _⟩ := (taken o (by omega)).fin i hi
      exact ⟨b, hb'⟩
    have hlb := hbs.length_eq
    obtain ⟨j, hj', nj, pxj⟩ := C28_pixels E hS hbq hmq hc hbs
    have fb : ∀ o (h : o < bs.length), fin E (qs[o]'(by omega)) = .ok bs[o] := fun o h => by
      have := hbs.get (i := o) (by omega) h
      simpa only [List.get_eq_getElem] using this
    have sm := fin_shape hS m hbm.ok.1 hbm.ok.2 (runAll_each h1 (show Each E.Matches (.concat ps d) from
      (EachL_iff _ _).2 hm)) i hi
    have hin : i.n = j.n := by
      rw [sm.n, (runAll_nchan h1).1, nj, c1]
      simp only [Node.nchan, nchans_eq]
    have size : i.h = j.h ∧ i.w = j.w := by
      have h0 : 0 < ps.length := List.length_pos_iff.2 hne
      have hb0 : 0 < bs.length := by omega
      obtain ⟨b, hb', k1, k2, _⟩ := (taken 0 h0).fin i hi
      rw [fb 0 hb0] at hb'
      obtain rfl := Except.ok.inj hb'
      obtain ⟨p1, p2, _⟩ := pxj 0 (by omega)
      exact ⟨k1.symm.trans p1, k2.symm.trans p2⟩
    refine ⟨j, hj', size.1, size.2, hin, fun y x k hy hx hk => ?_⟩
    obtain ⟨o, h, k', hk', rfl⟩ := in_part (ps.map nchan) k (by rw [← c1, ← nj, ← hin]; exact hk)
    have h : o < ps.length := by simpa using h
    simp only [List.getElem_map] at hk'
    have hbo : o < bs.length := by omega
    obtain ⟨b, hb', k1, k2, k3, k4⟩ := (taken o h).fin i hi
    rw [fb o hbo] at hb'
    obtain rfl := Except.ok.inj hb'
    rw [← List.map_take]
    have cop := k4 k' _ ⟨rfl, hk'⟩
    obtain ⟨p1, p2, p3⟩ := pxj o (by omega)
    rw [← cop.px y x hy hx, ← p3 k' y x cop.out (size.1 ▸ hy) (size.2 ▸ hx), List.map_take, c1, ← List.map_take]
  refine ⟨fwd, fun j hj' => ?_⟩
  suffices ∃ i, fin E m = .ok i by
    obtain ⟨i, hi⟩ := this
    obtain ⟨j', e, s⟩ := fwd i hi
    rw [hj'] at e
    cases e
    exact ⟨i, hi, s⟩
  obtain ⟨bs, hbs⟩ := parts _ _ _ hj'
  obtain ⟨as, has⟩ := forall₂_of (R := fun p a => fin E p = .ok a) (as := ps) fun p hp => by
    obtain ⟨o, h, rfl⟩ := List.getElem_of_mem hp
    have hlb := hbs.length_eq
    have := hbs.get (i := o) (by omega) (by omega)
    exact runAll_fin (hqs o h) this
  obtain ⟨i0, hi0, n0, px0⟩ := C28_pixels E hS hb hm hn has
  have h0 : 0 < ps.length := List.length_pos_iff.2 hne
  have hla := has.length_eq
  have hT : Taken E (fun _ _ => False) ps[0] (.concat ps d) := {
    dsize := (hd _ (List.getElem_mem h0)).symm
    nchan := fun _ _ h => h.elim
    fin := fun i' hi' => by
      have fa := has.get (i := 0) h0 (by omega)
      simp only [List.get_eq_getElem] at fa
      rw [fa] at hi'
      cases hi'
      obtain ⟨p1, p2, _⟩ := px0 0 (by omega)
      exact ⟨i0, hi0, p1.symm, p2.symm, by rw [n0]; simp only [Node.nchan, nchans_eq], fun _ _ h => h.elim⟩ }
  have hlb := hbs.length_eq
  have fb := hbs.get (i := 0) (by omega) (by omega)
  simp only [List.get_eq_getElem] at fb
  rcases carried_runAll (taken_carried hS hE _ hj ho) js (fun _ h => h) hT with ⟨e, _, g⟩ | ⟨x, y, g1, g2, g3⟩
  · rw [h1] at g; cases g
  · rw [h1] at g2
    rw [hqs 0 h0] at g1
    cases g1
    cases g2
    obtain ⟨i, hi, _⟩ := g3.fin _ fb
    exact ⟨i, hi⟩

/-! ### optimizing -/

/-- Operations, the first one first. -/
def doOps (n : Node) (os : List Op) : Node := os.foldl (fun s o => o.on s) n

/-- None of the operations is a warp that is left out. -/
def Told (H : Heur) : Node → List Op → Prop
  | _, [] => True
  | n, o :: os => ¬ o.Skips H n.dsize ∧ Told H (o.on n) os

theorem doOps_plain : ∀ {os : List Op} {n : Node}, Plain (doOps n os) → Plain n
  | [], _, h => h
  | o :: os, n, h => (sizeRules Heur.exact).sub (doOps_plain (os := os) (n := o.on n) h) (o.subOf n)

theorem parts_out (o : Op) {n : Node} {ts : List Node} {d : Int × Int} (hn : Plain (o.on n)) (ht : Plain (.concat ts d))
    (hd : n.dsize = d) (h : ∀ r, Out H n r ↔ Out H (.concat ts d) r) (hk : ¬ o.Skips H d) (r : Node) :
    Out H (o.on n) r ↔ Out H (.concat (ts.map o.on) (o.size d)) r := by
  have hc : Plain (o.on (.concat ts d)) := o.plain hn ht hd.symm
  have hp : ∀ t ∈ ts, Plain (o.on t) := fun t h =>
    o.plain hc ((sizeRules H).parts ht t h) ((sizeRules H).same ht t h)
  have key : ∀ qs, List.Forall₂ (Out H) ts qs →
      (Out H (o.on (.concat qs d)) r ↔ ∃ rs, List.Forall₂ (Out H) (qs.map o.on) rs ∧ r = .concat rs (o.size d)) := by
    intro qs hq
    have ho : Out H (.concat ts d) (.concat qs d) := (out_concat ht).2 ⟨qs, hq, rfl⟩
    obtain ⟨q1, q2, _⟩ := ho.plain ht
    have hq' := o.plain hn q1 hd.symm
    rw [o.out_concat hq' q2 hk, out_concat (o.pushed hq')]
  rw [o.out hn, out_concat (o.pushed hc)]
  simp only [h, out_concat ht, List.forall₂_map_left_iff]
  have each : ∀ rs, List.Forall₂ (fun t r => Out H (o.on t) r) ts rs ↔
      List.Forall₂ (fun t r => ∃ q, Out H t q ∧ Out H (o.on q) r) ts rs := by
    intro rs
    exact ⟨fun h => forall₂_imp_left h fun t ht r hr => (o.out (hp t ht)).1 hr,
      fun h => forall₂_imp_left h fun t ht r hr => (o.out (hp t ht)).2 hr⟩
  constructor
  · rintro ⟨s, ⟨qs, hq, rfl⟩, h2⟩
    obtain ⟨rs, g, rfl⟩ := (key qs hq).1 h2
    rw [List.forall₂_map_left_iff] at g
    exact ⟨rs, (each rs).2 (forall₂_two.1 ⟨qs, hq, g⟩), rfl⟩
  · rintro ⟨rs, g, rfl⟩
    obtain ⟨qs, hq, g⟩ := forall₂_two.2 ((each rs).1 g)
    exact ⟨_, ⟨qs, hq, rfl⟩, (key qs hq).2 ⟨rs, by rw [List.forall₂_map_left_iff]; exact g, rfl⟩⟩

theorem ops_out : ∀ (os : List Op) {n : Node} {ts : List Node} {d : Int × Int}, Plain (doOps n os) → Plain (.concat ts d) →
    n.dsize = d → (∀ r, Out H n r ↔ Out H (.concat ts d) r) → Told H n os → ∃ e, (doOps n os).dsize = e ∧
      Plain (.concat (ts.map fun t => doOps t os) e) ∧
      ∀ r, Out H (doOps n os) r ↔ Out H (.concat (ts.map fun t => doOps t os) e) r
  | [], n, ts, d, _, ht, hd, h, _ => ⟨d, hd, by simpa [doOps] using ht, by simpa [doOps] using h⟩
  | o :: os, n, ts, d, hn, ht, hd, h, hk => by
    have hn' : Plain (o.on n) := doOps_plain (os := os) hn
    have hc : Plain (o.on (.concat ts d)) := o.plain hn' ht hd.symm
    obtain ⟨e, h1, h2, h3⟩ := ops_out os (n := o.on n) (ts := ts.map o.on) (d := o.size d) hn (o.pushed hc)
      (by rw [o.on_dsize, hd]) (parts_out o hn' ht hd h (hd ▸ hk.1)) hk.2
    refine ⟨e, h1, ?_, ?_⟩
    · rw [List.map_map] at h2
      exact h2
    · intro r
      have := h3 r
      rw [List.map_map] at this
      exact this

/-- No overviews are taken. -/
def NoOverviews (js : List Job) : Prop := ∀ k, Job.overview k ∉ js

/-- No warp that is made leaves the size and is taken for the identity. -/
def Moves (H : Heur) : Node → List Job → Prop
  | _, [] => True
  | n, j :: js => ∀ m, j.run n = .ok m →
    (∀ s tf d a, m = .warp s tf d a → ¬ (d = s.dsize ∧ H.negl a.noopEps tf = true)) ∧ Moves H m js

theorem job_ops {n m : Node} {j : Job} (hj : ∀ k, j ≠ .overview k) (h : j.run n = .ok m)
    (hm : ∀ s tf d a, m = .warp s tf d a → ¬ (d = s.dsize ∧ H.negl a.noopEps tf = true)) :
    ∃ os, m = doOps n os ∧ Told H n os ∧ ∀ t : Node, t.dsize = n.dsize → j.run t = .ok (doOps t os) := by
  cases j with
  | overview k => exact absurd rfl (hj k)
  | warp tf d a =>
    cases h
    refine ⟨[.warp tf (mkWarp n tf d a).dsize a], rfl, ⟨hm _ _ _ _ rfl, trivial⟩, fun t ht => ?_⟩
    have e : mkWarp t tf d a = .warp t tf (mkWarp n tf d a).dsize a := by
      cases d with
      | none => simp only [mkWarp, ht]; rfl
      | some d => rfl
    exact congrArg Except.ok e
  | dequant q =>
    cases h
    exact ⟨[.deq q], rfl, ⟨id, trivial⟩, fun t ht => rfl⟩
  | crop sl =>
    obtain ⟨ysl, xsl⟩ := sl
    cases h
    refine ⟨[.crop _ _ _ _], rfl, ⟨id, trivial⟩, fun t ht => ?_⟩
    simp only [Job.run, mkCrop, chanCheck, ht]
    rfl
  | padded y0 y1 x0 x1 pad =>
    simp only [Job.run, paddedCrop] at h ⊢
    cases hy : embedSlice y0 y1 n.dsize.2 pad.1.1 pad.1.2 with
    | error e => rw [hy] at h; cases h
    | ok u =>
      obtain ⟨ysl, yex⟩ := u
      cases hx : embedSlice x0 x1 n.dsize.1 pad.2.1 pad.2.2 with
      | error e => rw [hy, hx] at h; cases h
      | ok v =>
        obtain ⟨xsl, xex⟩ := v
        rw [hy, hx] at h
        simp only [mkCrop, chanCheck, ints] at h
        by_cases hc : yex.1 ≠ 0 ∨ yex.2 ≠ 0 ∨ xex.1 ≠ 0 ∨ xex.2 ≠ 0
        · simp only [if_pos hc] at h
          cases h
          refine ⟨[.crop _ _ _ _, .warp _ _ _], rfl, ⟨id, hm _ _ _ _ rfl, trivial⟩, fun t ht => ?_⟩
          simp only [ht, hy, hx, mkCrop, chanCheck, ints, if_pos hc]
          rfl
        · simp only [if_neg hc] at h
          cases h
          refine ⟨[.crop _ _ _ _], rfl, ⟨id, trivial⟩, fun t ht => ?_⟩
          simp only [ht, hy, hx, mkCrop, chanCheck, ints, if_neg hc]
          rfl

theorem doOps_append (n : Node) (os os' : List Op) : doOps n (os ++ os') = doOps (doOps n os) os' := by
  simp only [doOps, List.foldl_append]

theorem told_append : ∀ {os os' : List Op} {n : Node}, Told H n os → Told H (doOps n os) os' → Told H n (os ++ os')
  | [], _, _, _, h => h
  | _ :: _, _, _, h, h' => ⟨h.1, told_append h.2 h'⟩

theorem doOps_dsize : ∀ (os : List Op) {n t : Node}, t.dsize = n.dsize → (doOps t os).dsize = (doOps n os).dsize
  | [], _, _, h => h
  | o :: os, n, t, h => doOps_dsize os (n := o.on n) (t := o.on t) (by rw [o.on_dsize, o.on_dsize, h])

theorem jobs_ops : ∀ {js : List Job} {n m : Node}, NoOverviews js → Moves H n js → runAll n js = .ok m →
    ∃ os, m = doOps n os ∧ Told H n os ∧ ∀ t : Node, t.dsize = n.dsize → runAll t js = .ok (doOps t os)
  | [], n, m, _, _, h => by
    cases h
    exact ⟨[], rfl, trivial, fun t _ => rfl⟩
  | j :: js, n, m, ho, hm, h => by
    simp only [runAll] at h
    cases e : j.run n with
    | error x => rw [e] at h; cases h
    | ok n' =>
      rw [e] at h
      obtain ⟨h1, h2⟩ := hm n' e
      obtain ⟨os, rfl, g2, g3⟩ := job_ops (fun k hk => ho k (by simp [hk])) e h1
      obtain ⟨os', rfl, g5, g6⟩ := jobs_ops (fun k hk => ho k (by simp [hk])) h2 h
      refine ⟨os ++ os', (doOps_append _ _ _).symm, told_append g2 g5, fun t ht => ?_⟩
      rw [runAll, g3 t ht, doOps_append]
      exact g6 _ (doOps_dsize os ht)

/-- C89 for `optimize` and `finalize()` with its default, without overviews: the two results are optimized to the same
image, so they have the same array.  A warp by the identity that keeps the size is an exception: `C89_identity_violated`. -/
theorem C89_results {ps : List Node} (hb : ∀ p ∈ ps, Built p) (hp : ∀ p ∈ ps, NoOv p) {n : Node} (hn : mkConcat ps = .ok n)
    {js : List Job} (ho : NoOverviews js) (hm : Moves H n js) {m : Node} (h1 : runAll n js = .ok m) (hbm : Built m)
    {qs : List Node} (hq : List.Forall₂ (fun p q => runAll p js = .ok q) ps qs) {c : Node} (hc : mkConcat qs = .ok c) :
    (∀ r, (∃ f, opt H f m = .ok r) ↔ ∃ f, opt H f c = .ok r) ∧
    ∀ (E : Env V) i, (∃ f, finalize H E f m = .ok i) ↔ ∃ f, finalize H E f c = .ok i := by
  obtain ⟨d, rfl, hne, hd⟩ := mkConcat_ok hn
  obtain ⟨d', rfl, -, hd'⟩ := mkConcat_ok hc
  obtain ⟨os, rfl, ht, hr⟩ := jobs_ops ho hm h1
  have hqs : qs = ps.map fun p => doOps p os := by
    have : ∀ (ps qs : List Node), (∀ p ∈ ps, p.dsize = d) → List.Forall₂ (fun p q => runAll p js = .ok q) ps qs →
        qs = ps.map fun p => doOps p os := by
      intro ps qs hd h
      induction h with
      | nil => rfl
      | cons e _ ih =>
        rw [hr _ (hd _ (by simp))] at e
        cases e
        rw [List.map_cons, ← ih fun p hp => hd p (by simp [hp])]
    exact this ps qs hd hq
  have hpn : Plain (.concat ps d) := by
    have hb' : Built (.concat ps d) := .concat ps _ hb hn
    exact ⟨hb'.ok.1, hb'.ok.2, (NoOvL_iff ps).2 hp⟩
  have hops : ∀ (os : List Op) {n : Node}, NoOv n → NoOv (doOps n os) := by
    intro os
    induction os with
    | nil => exact fun h => h
    | cons o os ih => intro n h; exact ih (n := o.on n) (by cases o <;> exact h)
  obtain ⟨e, g1, g2, g3⟩ := ops_out os ⟨hbm.ok.1, hbm.ok.2, hops os hpn.noOv⟩ hpn rfl (fun _ => Iff.rfl) ht
  have hde : d' = e := by
    obtain ⟨p, ps', rfl⟩ := List.exists_cons_of_ne_nil hne
    subst hqs
    rw [← hd' (doOps p os) (by simp), doOps_dsize os (n := .concat (p :: ps') d) (hd p (by simp)), ← g1]
  subst hde hqs
  exact ⟨g3, same_arrays g3⟩

/-! #### cases -/

/-- A few operations without overviews. -/
def someJobs : List Job :=
  [.warp (.scale 2) none .default, .crop ((some 1, some 6), (none, some 9)), .dequant ⟨0, 1, 0, 255, none⟩,
    .padded (-1) 4 2 9 ((0, 0), (1, 1))]

/-- The parts of `oddPair`. -/
def oddParts : List Node := [.crop (.warp (.leaf rgbLeaf) (.trans (1 / 2) 1) (6, 5) .default) 1 5 0 5 none,
  .warp (.leaf { rgbLeaf with id := 2 }) (.trans (1 / 2) 1) (5, 4) { Algo.default with interp := .nearest }]

example : mkConcat oddParts = .ok oddPair := by rfl

/-- What `someJobs` makes of an image of the size of `oddPair`. -/
def someRun (n : Node) : Node :=
  .warp (.crop (mkDequant (.crop (.warp n (.scale 2) (10, 8) .default) 1 6 0 9 none) ⟨0, 1, 0, 255, none⟩) 0 4 1 9 none)
    (.trans 0 1) (9, 5) .default

theorem someSteps {n : Node} (h : n.dsize = (5, 4)) :
    (Job.warp (.scale 2) none .default).run n = .ok (.warp n (.scale 2) (10, 8) .default) ∧
    (Job.crop ((some 1, some 6), (none, some 9))).run (.warp n (.scale 2) (10, 8) .default) =
      .ok (.crop (.warp n (.scale 2) (10, 8) .default) 1 6 0 9 none) ∧
    (Job.padded (-1) 4 2 9 ((0, 0), (1, 1))).run (mkDequant (.crop (.warp n (.scale 2) (10, 8) .default) 1 6 0 9 none)
      ⟨0, 1, 0, 255, none⟩) = .ok (someRun n) := by
  have e : autoDsize (some (.scale 2)) (5, 4) = (10, 8) := by decide +kernel
  have ey : embedSlice (-1) 4 5 0 0 = .ok ((0, 4), (1, 0)) := by rfl
  have ex : embedSlice 2 9 9 1 1 = .ok ((1, 9), (0, 1)) := by rfl
  refine ⟨?_, rfl, ?_⟩
  · simp only [Job.run, mkWarp, h, e]
  · have ed : (mkDequant (.crop (.warp n (.scale 2) (10, 8) .default) 1 6 0 9 none)
      ⟨0, 1, 0, 255, none⟩).dsize = (9, 5) := rfl
    simp only [Job.run, paddedCrop, ed, ey, ex]
    simp only [mkCrop, chanCheck, ints, ed]
    rw [if_pos (by decide)]
    simp only [mkWarp, someRun]
    norm_num
    decide

theorem someRun_eq {n : Node} (h : n.dsize = (5, 4)) : runAll n someJobs = .ok (someRun n) := by
  obtain ⟨h1, h2, h3⟩ := someSteps h
  have h4 : ∀ x : Node, (Job.dequant ⟨0, 1, 0, 255, none⟩).run x = .ok (mkDequant x ⟨0, 1, 0, 255, none⟩) := fun _ => rfl
  simp only [someJobs, runAll, h1, h2, h3, h4]

theorem someJobs_moves {n : Node} (h : n.dsize = (5, 4)) : Moves Heur.code n someJobs := by
  obtain ⟨h1, h2, h3⟩ := someSteps h
  intro m e
  rw [h1] at e
  cases e
  refine ⟨fun s tf d a e => ?_, ?_⟩
  · cases e
    rw [h]
    decide +kernel
  intro m e
  rw [h2] at e
  cases e
  refine ⟨fun s tf d a e => (by cases e), ?_⟩
  intro m e
  cases e
  refine ⟨fun s tf d a e => (by cases e), ?_⟩
  intro m e
  rw [h3] at e
  cases e
  refine ⟨fun s tf d a e => ?_, trivial⟩
  cases e
  rintro ⟨e, _⟩
  exact absurd e (show ((9, 5) : Int × Int) ≠ (8, 4) by decide)

theorem someRun_ok {n : Node} (h : n.dsize = (5, 4)) (hb : Built n) : Built (someRun n) := by
  refine built_of _ ?_ ?_
  · exact ⟨⟨⟨⟨hb.ok.1, by decide +kernel⟩, by decide, by decide, trivial⟩, by decide, by decide, trivial⟩, by decide +kernel⟩
  · exact ⟨⟨by decide, by decide⟩, ⟨⟨⟨⟨by decide, by decide⟩, hb.ok.2⟩, by decide, show (6 : Int) ≤ 8 by decide, by decide,
      show (9 : Int) ≤ 10 by decide⟩, rfl⟩, by decide, show (4 : Int) ≤ 5 by decide, by decide, show (9 : Int) ≤ 9 by decide⟩

/-- The two results of `someJobs` are different images with the same optimized image. -/
example : ∃ c, runAll oddPair someJobs = .ok (someRun oddPair) ∧ mkConcat (oddParts.map someRun) = .ok c ∧
    (∃ ps d, c = .concat ps d) ∧ ∃ f r, opt Heur.code f (someRun oddPair) = .ok r ∧ ∃ g, opt Heur.code g c = .ok r := by
  have hd : ∀ p ∈ oddParts, p.dsize = (5, 4) := by
    intro p hp
    simp only [oddParts, List.mem_cons, List.not_mem_nil, or_false] at hp
    rcases hp with rfl | rfl <;> rfl
  have hw := (WFL_iff _ _).1 oddPair_built.ok.1.2
  have hf := (FitL_iff _).1 oddPair_built.ok.2.2
  have hc : mkConcat (oddParts.map someRun) = .ok (.concat (oddParts.map someRun) (9, 5)) := rfl
  obtain ⟨r, er, _⟩ := holds_ok (x := opt Heur.code 60 (someRun oddPair)) (f := fun _ => true) (by decide +kernel)
  refine ⟨_, someRun_eq rfl, hc, ⟨_, _, rfl⟩, 60, r, er, ?_⟩
  refine ((C89_results (H := Heur.code) (V := Unit) (ps := oddParts) (n := oddPair) (js := someJobs)
    (fun p hp => built_of p (hw p hp).1 (hf p hp)) ((NoOvL_iff _).1 oddPair_noOv) rfl ?_ (someJobs_moves rfl)
    (someRun_eq rfl) (someRun_ok rfl oddPair_built) ?_ hc).1 r).1 ⟨60, er⟩
  · intro k hk
    simp [someJobs] at hk
  · exact .cons (someRun_eq rfl) (.cons (someRun_eq rfl) .nil)

/-- C89 fails for a warp by the identity: a warp of the concat leaves it as it is, but warps of the parts replace the
interpolation of the part that was moved with nearest neighbours. -/
theorem C89_identity_violated : mkConcat oddParts = .ok oddPair ∧ Built oddPair ∧ NoOv oddPair ∧
    ∃ m c qs, runAll oddPair [.warp .id none .default] = .ok m ∧
      List.Forall₂ (fun p q => runAll p [.warp .id none .default] = .ok q) oddParts qs ∧ mkConcat qs = .ok c ∧
      ∃ a b, opt Heur.code 40 m = .ok a ∧ opt Heur.code 40 c = .ok b ∧
        (∃ p ∈ paths a, Step.warp true ∈ p) ∧ ∀ p ∈ paths b, Step.warp true ∉ p := by
  have hc : mkConcat (oddParts.map fun p => mkWarp p .id none .default) =
      .ok (.concat (oddParts.map fun p => mkWarp p .id none .default) (mkWarp oddPair .id none .default).dsize) :=
    mkConcat_same (by simp [oddParts]) (by
      intro q hq
      obtain ⟨p, hp, rfl⟩ := List.mem_map.1 hq
      simp only [oddParts, List.mem_cons, List.not_mem_nil, or_false] at hp
      rcases hp with rfl | rfl <;> rfl)
  refine ⟨rfl, oddPair_built, oddPair_noOv, mkWarp oddPair .id none .default, _, _, rfl,
    .cons rfl (.cons rfl .nil), hc, ?_⟩
  obtain ⟨a, ha, ea⟩ := holds_ok (x := opt Heur.code 40 (mkWarp oddPair .id none .default))
    (f := fun m => decide (∃ p ∈ paths m, Step.warp true ∈ p)) (by decide +kernel)
  obtain ⟨b, hb, eb⟩ := holds_ok (x := opt Heur.code 40 (.concat (oddParts.map fun p => mkWarp p .id none .default)
    (mkWarp oddPair .id none .default).dsize)) (f := fun m => decide (∀ p ∈ paths m, Step.warp true ∉ p)) (by decide +kernel)
  exact ⟨a, b, ha, hb, of_decide_eq_true ea, of_decide_eq_true eb⟩

/-- Arrays for `C89_arrays`, with an overview. -/
example : ∃ n m c : Node, mkConcat [.leaf bandLeaf, .leaf bandLeaf] = .ok n ∧ runAll n fewJobs = .ok m ∧
    (∃ q, runAll (.leaf bandLeaf) fewJobs = .ok q ∧ mkConcat [q, q] = .ok c) ∧
    ∃ i j, fin (looking (twoBands fun y x => some (y + x))) m = .ok i ∧
      fin (looking (twoBands fun y x => some (y + x))) c = .ok j ∧
      (i.h, i.w, i.n) = (2, 2, 4) ∧ i.px 0 1 3 = some 1 ∧ j.px 0 1 3 = some 1 := by
  obtain ⟨m, h1, h2⟩ := holds_ok (x := runAll (.concat [.leaf bandLeaf, .leaf bandLeaf] bandLeaf.dsize) fewJobs)
    (f := fun m => holds (runAll (.leaf bandLeaf) fewJobs) fun q => holds (mkConcat [q, q]) fun c =>
      holds (fin (looking (twoBands fun y x => some (y + x))) m) fun i =>
        holds (fin (looking (twoBands fun y x => some (y + x))) c) fun j =>
          decide ((i.h, i.w, i.n) = (2, 2, 4) ∧ i.px 0 1 3 = some 1 ∧ j.px 0 1 3 = some 1)) (by decide +kernel)
  obtain ⟨q, h3, h4⟩ := holds_ok h2
  obtain ⟨c, h5, h6⟩ := holds_ok h4
  obtain ⟨i, h7, h8⟩ := holds_ok h6
  obtain ⟨j, h9, h10⟩ := holds_ok h8
  exact ⟨_, m, c, rfl, h1, ⟨q, h3, h5⟩, i, j, h7, h9, by simpa using h10⟩

end Verif.Props
