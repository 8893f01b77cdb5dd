/-
C82: how the parts are grouped into concats makes no difference.
-/
import Verif.Props.Concat
import Verif.Props.Opt
import Verif.BuiltIff

namespace Verif.Props

open Verif.Tree Verif.Helpers Verif.Tree.Node

variable {V : Type}

/-! ### arrays -/

theorem cat_assoc (a b c : Img V) : (a.cat b).cat c = a.cat (b.cat c) := by
  simp only [Img.cat, Img.mk.injEq, true_and]
  refine ⟨by omega, ?_⟩
  funext y x k
  show (if k < a.n + b.n then (if k < a.n then a.px y x k else b.px y x (k - a.n)) else c.px y x (k - (a.n + b.n))) =
    (if k < a.n then a.px y x k else if k - a.n < b.n then b.px y x (k - a.n) else c.px y x (k - a.n - b.n))
  by_cases h1 : k < a.n
  · rw [if_pos (by omega : k < a.n + b.n), if_pos h1, if_pos h1]
  · by_cases h2 : k < a.n + b.n
    · rw [if_pos h2, if_neg h1, if_neg h1, if_pos (by omega)]
    · rw [if_neg h2, if_neg h1, if_neg (by omega)]
      congr 1
      omega

theorem catAll_cons (a : Img V) {as : List (Img V)} (h : as ≠ []) (r : Img V) :
    catAll (a :: as) = .ok r ↔ ∃ b, catAll as = .ok b ∧ a.h = b.h ∧ a.w = b.w ∧ r = a.cat b := by
  obtain ⟨x, xs, rfl⟩ := List.exists_cons_of_ne_nil h
  rw [catAll]
  · cases catAll (x :: xs) with
    | error e => simp
    | ok b =>
      simp only [Except.ok.injEq]
      by_cases hs : a.h = b.h ∧ a.w = b.w
      · rw [if_pos hs]
        constructor
        · intro e
          cases e
          exact ⟨b, rfl, hs.1, hs.2, rfl⟩
        · rintro ⟨_, rfl, _, _, rfl⟩
          rfl
      · rw [if_neg hs]
        constructor
        · intro e
          cases e
        · rintro ⟨_, rfl, h1, h2, _⟩
          exact (hs ⟨h1, h2⟩).elim
  · simp

/-- Stacking in two steps. -/
theorem catAll_append {bs : List (Img V)} (hb : bs ≠ []) : ∀ (as : List (Img V)), as ≠ [] → ∀ r : Img V,
    (catAll (as ++ bs) = .ok r ↔
      ∃ a b, catAll as = .ok a ∧ catAll bs = .ok b ∧ a.h = b.h ∧ a.w = b.w ∧ r = a.cat b)
  | [], h, _ => (h rfl).elim
  | [a], _, r => by
    rw [List.singleton_append, catAll_cons a hb]
    constructor
    · rintro ⟨b, h⟩
      exact ⟨a, b, rfl, h⟩
    · rintro ⟨a', b, e, h⟩
      cases e
      exact ⟨b, h⟩
  | a :: c :: as, _, r => by
    rw [List.cons_append, catAll_cons a (by simp), ]
    constructor
    · rintro ⟨q, hq, h1, h2, rfl⟩
      obtain ⟨u, v, hu, hv, h3, h4, rfl⟩ := (catAll_append hb (c :: as) (by simp) q).1 hq
      have h1 : a.h = u.h := h1
      have h2 : a.w = u.w := h2
      exact ⟨a.cat u, v, (catAll_cons a (by simp) _).2 ⟨u, hu, h1, h2, rfl⟩, hv, h1.trans h3, h2.trans h4,
        (cat_assoc a u v).symm⟩
    · rintro ⟨p, v, hp, hv, h1, h2, rfl⟩
      obtain ⟨u, hu, h3, h4, rfl⟩ := (catAll_cons a (by simp) _).1 hp
      have h1 : a.h = v.h := h1
      have h2 : a.w = v.w := h2
      exact ⟨u.cat v, (catAll_append hb (c :: as) (by simp) _).2 ⟨u, v, hu, hv, by omega, by omega, rfl⟩, h3, h4,
        cat_assoc a u v⟩

/-- The array of several images, stacked. -/
def Stacked (E : Env V) (ps : List Node) (r : Img V) : Prop :=
  ∃ as, List.Forall₂ (fun p a => fin E p = .ok a) ps as ∧ catAll as = .ok r

theorem fin_concat (E : Env V) (ps : List Node) (d : Int × Int) (r : Img V) :
    fin E (.concat ps d) = .ok r ↔ Stacked E ps r := by
  rw [fin]
  constructor
  · intro h
    cases e : finL E ps with
    | error x => rw [e] at h; cases h
    | ok as =>
      rw [e] at h
      exact ⟨as, (finL_forall₂ E ps as).1 e, h⟩
  · rintro ⟨as, h1, h2⟩
    rw [(finL_forall₂ E ps as).2 h1]
    exact h2

theorem stacked_one (E : Env V) (p : Node) (r : Img V) : Stacked E [p] r ↔ fin E p = .ok r := by
  constructor
  · rintro ⟨as, h1, h2⟩
    cases h1 with
    | cons h t =>
      cases t
      cases h2
      exact h
  · intro h
    exact ⟨[r], .cons h .nil, rfl⟩

theorem stacked_append (E : Env V) {ps qs : List Node} (hp : ps ≠ []) (hq : qs ≠ []) (r : Img V) :
    Stacked E (ps ++ qs) r ↔
      ∃ a b, Stacked E ps a ∧ Stacked E qs b ∧ a.h = b.h ∧ a.w = b.w ∧ r = a.cat b := by
  have ne : ∀ {ps : List Node} {as : List (Img V)},
      List.Forall₂ (fun p a => fin E p = .ok a) ps as → ps ≠ [] → as ≠ [] := by
    intro ps as h hne e
    subst e
    cases h
    exact hne rfl
  constructor
  · rintro ⟨as, h1, h2⟩
    obtain ⟨as1, as2, f1, f2, rfl⟩ : ∃ a1 a2, List.Forall₂ (fun p a => fin E p = .ok a) ps a1 ∧
        List.Forall₂ (fun p a => fin E p = .ok a) qs a2 ∧ as = a1 ++ a2 :=
      ⟨as.take ps.length, as.drop ps.length, List.forall₂_take_append as ps qs h1.flip |>.flip,
        List.forall₂_drop_append as ps qs h1.flip |>.flip, (List.take_append_drop _ _).symm⟩
    obtain ⟨a, b, ha, hb, h3⟩ := (catAll_append (ne f2 hq) as1 (ne f1 hp) r).1 h2
    exact ⟨a, b, ⟨as1, f1, ha⟩, ⟨as2, f2, hb⟩, h3⟩
  · rintro ⟨a, b, ⟨as1, f1, ha⟩, ⟨as2, f2, hb⟩, h3⟩
    exact ⟨as1 ++ as2, List.rel_append f1 f2, (catAll_append (ne f2 hq) as1 (ne f1 hp) r).2 ⟨a, b, ha, hb, h3⟩⟩

/-! ### images without groups -/

/-- The parts of a concat; any other image by itself. -/
def partsOf : Node → List Node
  | .concat ps _ => ps
  | p => [p]

mutual
/-- The image with every concat in a concat replaced by its parts. -/
def ungroup : Node → Node
  | .leaf l => .leaf l
  | .concat ps d => .concat (ungroupL ps) d
  | .warp s tf d a => .warp (ungroup s) tf d a
  | .crop s y0 y1 x0 x1 c => .crop (ungroup s) y0 y1 x0 x1 c
  | .overview s k d => .overview (ungroup s) k d
  | .dequant s q d => .dequant (ungroup s) q d
def ungroupL : List Node → List Node
  | [] => []
  | p :: ps => partsOf (ungroup p) ++ ungroupL ps
end

theorem ungroup_dsize (n : Node) : (ungroup n).dsize = n.dsize := by
  cases n <;> rfl

/-- Both lists of names, if both are known. -/
def joinNames : Option (List Str) → Option (List Str) → Option (List Str)
  | some a, some b => some (a ++ b)
  | _, _ => none

theorem channelsL_cons (p : Node) (ps : List Node) : channelsL (p :: ps) = joinNames p.channels (channelsL ps) := by
  rw [channelsL]
  cases p.channels <;> cases channelsL ps <;> rfl

theorem channelsL_append : ∀ (ps qs : List Node),
    channelsL (ps ++ qs) = joinNames (channelsL ps) (channelsL qs)
  | [], qs => by
    rw [List.nil_append, channelsL]
    cases channelsL qs <;> rfl
  | p :: ps, qs => by
    rw [List.cons_append, channelsL_cons, channelsL_cons, channelsL_append ps qs]
    cases p.channels <;> cases channelsL ps <;> cases channelsL qs <;> simp [joinNames]

theorem channelsL_parts (p : Node) : channelsL (partsOf p) = p.channels := by
  have one : ∀ q : Node, channelsL [q] = q.channels := by
    intro q
    rw [channelsL_cons]
    cases q.channels <;> simp [joinNames, channelsL]
  cases p with
  | concat ps d => rfl
  | _ => exact one _

theorem nchans_append : ∀ (ps qs : List Node), nchans (ps ++ qs) = nchans ps + nchans qs
  | [], qs => by simp [nchans]
  | p :: ps, qs => by rw [List.cons_append, nchans, nchans, nchans_append ps qs, Nat.add_assoc]

theorem nchans_parts (p : Node) : nchans (partsOf p) = p.nchan := by
  cases p <;> simp [partsOf, nchans, nchan]

theorem denL_app : ∀ (ps qs : List Node), denL (ps ++ qs) = denL ps ++ denL qs
  | [], qs => rfl
  | p :: ps, qs => by rw [List.cons_append, denL, denL, denL_app ps qs, List.append_assoc]

theorem denL_parts (p : Node) : denL (partsOf p) = den p := by
  cases p <;> simp [partsOf, den, denL]

mutual
theorem ungroup_channels : ∀ n : Node, (ungroup n).channels = n.channels
  | .leaf l => rfl
  | .concat ps d => by rw [ungroup, channels, channels, ungroupL_channels ps]
  | .warp s _ _ _ => by rw [ungroup, channels, channels, ungroup_channels s]
  | .crop s _ _ _ _ c => by cases c <;> simp only [ungroup, channels, ungroup_channels s]
  | .overview s _ _ => by rw [ungroup, channels, channels, ungroup_channels s]
  | .dequant s _ _ => by rw [ungroup, channels, channels, ungroup_channels s]
theorem ungroupL_channels : ∀ ps : List Node, channelsL (ungroupL ps) = channelsL ps
  | [] => rfl
  | p :: ps => by
    rw [ungroupL, channelsL_append, channelsL_parts, ungroup_channels p, ungroupL_channels ps, channelsL_cons]
end

mutual
theorem ungroup_nchan : ∀ n : Node, (ungroup n).nchan = n.nchan
  | .leaf l => rfl
  | .concat ps d => by rw [ungroup, nchan, nchan, ungroupL_nchans ps]
  | .warp s _ _ _ => by rw [ungroup, nchan, nchan, ungroup_nchan s]
  | .crop s _ _ _ _ c => by cases c <;> simp only [ungroup, nchan, ungroup_nchan s]
  | .overview s _ _ => by rw [ungroup, nchan, nchan, ungroup_nchan s]
  | .dequant s _ _ => by rw [ungroup, nchan, nchan, ungroup_nchan s]
theorem ungroupL_nchans : ∀ ps : List Node, nchans (ungroupL ps) = nchans ps
  | [] => rfl
  | p :: ps => by rw [ungroupL, nchans_append, nchans_parts, ungroup_nchan p, ungroupL_nchans ps, nchans]
end

mutual
theorem ungroup_den : ∀ n : Node, den (ungroup n) = den n
  | .leaf l => rfl
  | .concat ps d => by rw [ungroup, den, den, ungroupL_den ps]
  | .warp s _ _ _ => by rw [ungroup, den, den, ungroup_den s]
  | .crop s _ _ _ _ c => by cases c <;> simp only [ungroup, den, ungroup_den s]
  | .overview s _ _ => by rw [ungroup, den, den, ungroup_den s]
  | .dequant s _ _ => by rw [ungroup, den, den, ungroup_den s]
theorem ungroupL_den : ∀ ps : List Node, denL (ungroupL ps) = denL ps
  | [] => rfl
  | p :: ps => by rw [ungroupL, denL_app, denL_parts, ungroup_den p, ungroupL_den ps, denL]
end

theorem wfl_append (d : Int × Int) (ps qs : List Node) : WFL d (ps ++ qs) ↔ WFL d ps ∧ WFL d qs := by
  simp only [WFL_iff, List.mem_append]
  exact ⟨fun h => ⟨fun p hp => h p (.inl hp), fun p hp => h p (.inr hp)⟩,
    fun h p hp => hp.elim (h.1 p) (h.2 p)⟩

/-- The parts of a well formed image of size `d`. -/
theorem wf_parts {p : Node} {d : Int × Int} (h : WF p) (hd : p.dsize = d) :
    partsOf p ≠ [] ∧ WFL d (partsOf p) := by
  cases p with
  | concat ps d' =>
    have e : d' = d := hd
    subst e
    exact h
  | _ => exact ⟨by simp [partsOf], h, hd, trivial⟩

mutual
theorem ungroup_wf : ∀ n : Node, WF n → WF (ungroup n)
  | .leaf l, h => h
  | .concat ps d, h => by
    obtain ⟨h1, h2⟩ := h
    have h3 := ungroupL_wf d ps h2
    exact ⟨h3.2 h1, h3.1⟩
  | .warp s _ _ _, h => ⟨ungroup_wf s h.1, h.2⟩
  | .crop s y0 y1 x0 x1 c, h => by
    obtain ⟨h1, h2, h3, h4⟩ := h
    refine ⟨ungroup_wf s h1, h2, h3, ?_⟩
    rw [ungroup_nchan s]
    exact h4
  | .overview s _ _, h => ungroup_wf s h
  | .dequant s _ _, h => ungroup_wf s h
theorem ungroupL_wf (d : Int × Int) : ∀ ps : List Node, WFL d ps →
    WFL d (ungroupL ps) ∧ (ps ≠ [] → ungroupL ps ≠ [])
  | [], _ => ⟨trivial, fun h => (h rfl).elim⟩
  | p :: ps, h => by
    obtain ⟨h1, h2, h3⟩ := h
    obtain ⟨a, b⟩ := wf_parts (ungroup_wf p h1) ((ungroup_dsize p).trans h2)
    refine ⟨(wfl_append _ _ _).2 ⟨b, (ungroupL_wf d ps h3).1⟩, fun _ => ?_⟩
    simp only [ungroupL]
    exact List.append_ne_nil_of_left_ne_nil a _
end

theorem fitl_append (ps qs : List Node) : FitL (ps ++ qs) ↔ FitL ps ∧ FitL qs := by
  simp only [FitL_iff, List.mem_append, or_imp, forall_and]

theorem fit_parts {p : Node} (h : Fit p) : FitL (partsOf p) := by
  cases p with
  | concat ps d => exact h.2
  | _ => exact ⟨h, trivial⟩

theorem mkOverview_dsize_congr {s t : Node} (h : s.dsize = t.dsize) (k : Int) :
    (mkOverview s k).dsize = (mkOverview t k).dsize := by
  show (ovSize k s.dsize.1, ovSize k s.dsize.2) = (ovSize k t.dsize.1, ovSize k t.dsize.2)
  rw [h]

mutual
theorem ungroup_fit : ∀ n : Node, Fit n → Fit (ungroup n)
  | .leaf l, h => h
  | .concat ps d, h => ⟨h.1, ungroupL_fit ps h.2⟩
  | .warp s _ _ _, h => ⟨h.1, ungroup_fit s h.2⟩
  | .crop s y0 y1 x0 x1 c, h => by
    obtain ⟨h1, h2⟩ := h
    refine ⟨ungroup_fit s h1, ?_⟩
    rw [ungroup_dsize s]
    exact h2
  | .overview s k d, h => ⟨ungroup_fit s h.1, h.2.trans (mkOverview_dsize_congr (ungroup_dsize s).symm k)⟩
  | .dequant s _ _, h => ⟨ungroup_fit s h.1, h.2.trans (ungroup_dsize s).symm⟩
theorem ungroupL_fit : ∀ ps : List Node, FitL ps → FitL (ungroupL ps)
  | [], _ => trivial
  | p :: ps, h => (fitl_append _ _).2 ⟨fit_parts (ungroup_fit p h.1), ungroupL_fit ps h.2⟩
end

/-- Reading an overview does not look at how the channels are grouped. -/
def Groupless (E : Env V) : Prop := ∀ s k i, E.overview (ungroup s) k i = E.overview s k i

theorem stacked_parts (E : Env V) (p : Node) (r : Img V) : Stacked E (partsOf p) r ↔ fin E p = .ok r := by
  cases p with
  | concat ps d => exact (fin_concat E ps d r).symm
  | _ => exact stacked_one E _ r

theorem py_ext {α : Type} {x y : Py α} (h : ∀ a, x = .ok a ↔ y = .ok a) :
    (∃ e, x = .error e) ∧ (∃ e, y = .error e) ∨ x = y := by
  cases x with
  | ok a => exact .inr ((h a).1 rfl).symm
  | error e =>
    cases y with
    | ok a => exact .inr ((h a).2 rfl)
    | error e' => exact .inl ⟨⟨e, rfl⟩, ⟨e', rfl⟩⟩

mutual
theorem ungroup_fin {E : Env V} (hE : Groupless E) : ∀ n : Node, WF n → ∀ r,
    fin E (ungroup n) = .ok r ↔ fin E n = .ok r
  | .leaf l, _, r => Iff.rfl
  | .concat ps d, h, r => by
    rw [ungroup, fin_concat, fin_concat]
    exact ungroupL_fin hE d ps h.2 h.1 r
  | .warp s tf d a, h, r => by
    rw [ungroup, fin, fin]
    rcases py_ext (ungroup_fin hE s h.1) with ⟨⟨e, h1⟩, ⟨e', h2⟩⟩ | h1
    · rw [h1, h2]
      simp
    · rw [h1]
  | .crop s y0 y1 x0 x1 c, h, r => by
    rw [ungroup, fin, fin]
    rcases py_ext (ungroup_fin hE s h.1) with ⟨⟨e, h1⟩, ⟨e', h2⟩⟩ | h1
    · rw [h1, h2]
      simp
    · rw [h1]
  | .overview s k d, h, r => by
    rw [ungroup, fin, fin]
    rcases py_ext (ungroup_fin hE s h) with ⟨⟨e, h1⟩, ⟨e', h2⟩⟩ | h1
    · rw [h1, h2]
      simp
    · rw [h1]
      simp only [hE s k]
  | .dequant s q d, h, r => by
    rw [ungroup, fin, fin]
    rcases py_ext (ungroup_fin hE s h) with ⟨⟨e, h1⟩, ⟨e', h2⟩⟩ | h1
    · rw [h1, h2]
      simp
    · rw [h1]
theorem ungroupL_fin {E : Env V} (hE : Groupless E) (d : Int × Int) : ∀ ps : List Node, WFL d ps → ps ≠ [] →
    ∀ r, Stacked E (ungroupL ps) r ↔ Stacked E ps r
  | [], _, h, _ => (h rfl).elim
  | p :: ps, h, _, r => by
    obtain ⟨h1, h2, h3⟩ := h
    have hp := fun a => (stacked_parts E (ungroup p) a).trans (ungroup_fin hE p h1 a)
    rw [ungroupL]
    by_cases hps : ps = []
    · subst hps
      rw [ungroupL, List.append_nil, stacked_one]
      exact hp r
    · rw [stacked_append E (wf_parts (ungroup_wf p h1) ((ungroup_dsize p).trans h2)).1
        ((ungroupL_wf d ps h3).2 hps), show p :: ps = [p] ++ ps from rfl, stacked_append E (by simp) hps]
      simp only [hp, stacked_one, ungroupL_fin hE d ps h3 hps]
end

/-! ### number of overviews -/

/-- The common value. -/
def common : List (Option Int) → Option Int
  | [] => none
  | c :: cs => if cs.all (fun c' => decide (c' = c)) then c else none

theorem common_iff (l : List (Option Int)) (v : Int) : common l = some v ↔ l ≠ [] ∧ ∀ c ∈ l, c = some v := by
  cases l with
  | nil => simp [common]
  | cons c cs =>
    simp only [common]
    by_cases h : cs.all (fun c' => decide (c' = c)) = true
    · rw [if_pos h]
      rw [List.all_eq_true] at h
      constructor
      · intro e
        refine ⟨by simp, fun x hx => ?_⟩
        rcases List.mem_cons.1 hx with rfl | hx
        · exact e
        · exact (of_decide_eq_true (h x hx)).trans e
      · exact fun e => e.2 c (by simp)
    · rw [if_neg h]
      constructor
      · intro e; cases e
      · rintro ⟨_, e⟩
        refine (h ?_).elim
        rw [List.all_eq_true]
        intro x hx
        exact decide_eq_true ((e x (by simp [hx])).trans (e c (by simp)).symm)

theorem common_append {l m : List (Option Int)} (h : l ≠ []) : common (l ++ m) = common (common l :: m) := by
  apply Option.ext
  intro v
  rw [common_iff, common_iff]
  simp only [List.mem_append, or_imp, forall_and, List.mem_cons, forall_eq, common_iff]
  constructor
  · rintro ⟨_, h1, h2⟩
    exact ⟨by simp, ⟨h, h1⟩, h2⟩
  · rintro ⟨_, ⟨_, h1⟩, h2⟩
    exact ⟨by simp [h], h1, h2⟩

theorem common_cons_congr {c : Option Int} {l m : List (Option Int)} (hl : l ≠ []) (hm : m ≠ [])
    (h : common l = common m) : common (c :: l) = common (c :: m) := by
  apply Option.ext
  intro v
  have := congrArg (fun o => o = some v) h
  simp only [eq_iff_iff, common_iff] at this
  rw [common_iff, common_iff]
  simp only [List.mem_cons, or_imp, forall_and, forall_eq]
  have e := this
  simp only [hl, hm, ne_eq, not_false_eq_true, true_and] at e
  simp [e]

theorem numOverviews_concat {ps : List Node} (h : ps ≠ []) (d : Int × Int) :
    numOverviews (.concat ps d) = (numOverviewsL ps).map common := by
  obtain ⟨p, ps, rfl⟩ := List.exists_cons_of_ne_nil h
  rw [numOverviews]
  cases e : numOverviewsL (p :: ps) with
  | error x => rfl
  | ok cs =>
    cases cs with
    | nil =>
      rw [numOverviewsL] at e
      split at e
      · cases e
      · split at e <;> cases e
    | cons c cs => rfl

theorem numOverviewsL_append : ∀ (ps qs : List Node), numOverviewsL (ps ++ qs) =
    (match numOverviewsL ps with
      | .error e => .error e
      | .ok a => (numOverviewsL qs).map (a ++ ·))
  | [], qs => by
    rw [List.nil_append, numOverviewsL]
    cases numOverviewsL qs <;> rfl
  | p :: ps, qs => by
    rw [List.cons_append, numOverviewsL, numOverviewsL, numOverviewsL_append ps qs]
    cases numOverviews p with
    | error e => rfl
    | ok c =>
      cases numOverviewsL ps with
      | error e => rfl
      | ok a => cases numOverviewsL qs <;> rfl

theorem numOverviewsL_ne {ps : List Node} (h : ps ≠ []) {cs} (e : numOverviewsL ps = .ok cs) : cs ≠ [] := by
  obtain ⟨p, ps, rfl⟩ := List.exists_cons_of_ne_nil h
  rw [numOverviewsL] at e
  split at e
  · cases e
  · split at e
    · cases e
    · cases e; simp

theorem numOverviews_parts {p : Node} (h : partsOf p ≠ []) : (numOverviewsL (partsOf p)).map common = numOverviews p := by
  cases p with
  | concat ps d => exact (numOverviews_concat h d).symm
  | _ =>
    simp only [partsOf, numOverviewsL]
    split <;> rename_i e <;> rw [e] <;> simp [Except.map, common]

mutual
theorem ungroup_ov : ∀ n : Node, WF n → (ungroup n).numOverviews = n.numOverviews
  | .leaf l, _ => rfl
  | .concat ps d, h => by
    rw [ungroup, numOverviews_concat ((ungroupL_wf d ps h.2).2 h.1), numOverviews_concat h.1]
    exact ungroupL_ov d ps h.2
  | .warp s _ _ _, h => by rw [ungroup, numOverviews, numOverviews, ungroup_ov s h.1]
  | .crop s _ _ _ _ _, h => by rw [ungroup, numOverviews, numOverviews, ungroup_ov s h.1]
  | .overview s _ _, h => by rw [ungroup, numOverviews, numOverviews, ungroup_ov s h]
  | .dequant s _ _, h => by rw [ungroup, numOverviews, numOverviews, ungroup_ov s h]
theorem ungroupL_ov (d : Int × Int) : ∀ ps : List Node, WFL d ps →
    (numOverviewsL (ungroupL ps)).map common = (numOverviewsL ps).map common
  | [], _ => rfl
  | p :: ps, h => by
    obtain ⟨h1, h2, h3⟩ := h
    have hne := (wf_parts (ungroup_wf p h1) ((ungroup_dsize p).trans h2)).1
    have ep := (numOverviews_parts hne).trans (ungroup_ov p h1)
    have el := ungroupL_ov d ps h3
    rw [ungroupL, numOverviewsL_append, numOverviewsL, ← ep]
    cases ea : numOverviewsL (partsOf (ungroup p)) with
    | error e => rfl
    | ok a =>
      have han := numOverviewsL_ne hne ea
      simp only [Except.map]
      cases eb : numOverviewsL (ungroupL ps) with
      | error e =>
        rw [eb] at el
        cases ec : numOverviewsL ps with
        | error e' => rw [ec] at el; exact el
        | ok c => rw [ec] at el; cases el
      | ok b =>
        rw [eb] at el
        cases ec : numOverviewsL ps with
        | error e' => rw [ec] at el; cases el
        | ok c =>
          rw [ec] at el
          simp only [Except.map, Except.ok.injEq] at el ⊢
          rw [common_append han]
          by_cases hps : ps = []
          · subst hps
            simp only [ungroupL, numOverviewsL, Except.ok.injEq] at eb ec
            subst eb ec
            rfl
          · exact common_cons_congr (numOverviewsL_ne ((ungroupL_wf d ps h3).2 hps) eb) (numOverviewsL_ne hps ec) el
end

/-! ### C82 -/

/-- C82: an image with concats in concats has the size, the channels, the number of overviews, the sources
and the array of the image in which they are replaced by their parts, everywhere in the image. -/
theorem C82_ungrouped {E : Env V} (hE : Groupless E) {n : Node} (hb : Built n) :
    (ungroup n).dsize = n.dsize ∧ (ungroup n).channels = n.channels ∧ (ungroup n).nchan = n.nchan ∧
    (ungroup n).numOverviews = n.numOverviews ∧ den (ungroup n) = den n ∧
    ∀ i, fin E (ungroup n) = .ok i ↔ fin E n = .ok i :=
  ⟨ungroup_dsize n, ungroup_channels n, ungroup_nchan n, ungroup_ov n hb.ok.1, ungroup_den n,
    ungroup_fin hE n hb.ok.1⟩

/-- The concats of the groups. -/
def Grouped (gs : List (List Node)) (ns : List Node) : Prop := List.Forall₂ (fun g n => mkConcat g = .ok n) gs ns

theorem mkConcat_of {ps : List Node} (hne : ps ≠ []) (d : Int × Int) (h : ∀ p ∈ ps, p.dsize = d) :
    mkConcat ps = .ok (.concat ps d) := by
  obtain ⟨n, hn⟩ := (C28_construction ps).2 ⟨hne, fun p hp q hq => (h p hp).trans (h q hq).symm⟩
  obtain ⟨d', rfl, _, h2⟩ := mkConcat_ok hn
  obtain ⟨p, hp⟩ := List.exists_mem_of_ne_nil ps hne
  rw [hn, ← h p hp, h2 p hp]

theorem grouped_ok {gs : List (List Node)} {ns : List Node} (h : Grouped gs ns) (d : Int × Int)
    (hd : ∀ n ∈ ns, n.dsize = d) :
    (∀ g ∈ gs, g ≠ [] ∧ ∀ p ∈ g, p.dsize = d) ∧ channelsL gs.flatten = channelsL ns ∧ nchans gs.flatten = nchans ns ∧
    denL gs.flatten = denL ns := by
  induction h with
  | nil => exact ⟨by simp, rfl, rfl, rfl⟩
  | @cons g n gs ns h _ ih =>
    obtain ⟨i1, i2, i3, i4⟩ := ih (fun m hm => hd m (by simp [hm]))
    obtain ⟨d', rfl, hne, hg⟩ := mkConcat_ok h
    have e : d' = d := hd (.concat g d') (by simp)
    subst e
    refine ⟨?_, ?_, ?_, ?_⟩
    · intro x hx
      rcases List.mem_cons.1 hx with rfl | hx
      · exact ⟨hne, hg⟩
      · exact i1 x hx
    · rw [List.flatten_cons, channelsL_append, i2, channelsL_cons]
      rfl
    · rw [List.flatten_cons, nchans_append, i3, nchans]
      rfl
    · rw [List.flatten_cons, denL_app, i4, denL]
      rfl

theorem grouped_fin (E : Env V) : ∀ {gs : List (List Node)} {ns : List Node}, Grouped gs ns → gs ≠ [] → ∀ r,
    Stacked E gs.flatten r ↔ Stacked E ns r
  | [], _, _, h, _ => (h rfl).elim
  | [g], _, h, _, r => by
    cases h with
    | cons h t =>
      cases t
      obtain ⟨d, rfl, _, _⟩ := mkConcat_ok h
      rw [stacked_one, fin_concat]
      simp
  | g :: g' :: gs, _, h, _, r => by
    cases h with
    | @cons _ n _ ns h t =>
      obtain ⟨d, rfl, hne, _⟩ := mkConcat_ok h
      have ih := grouped_fin E t (by simp)
      have hns : ns ≠ [] := by
        rintro rfl
        cases t
      have hfl : (g' :: gs).flatten ≠ [] := by
        cases t with
        | cons h' _ =>
          obtain ⟨_, _, hne', _⟩ := mkConcat_ok h'
          simp [hne']
      rw [List.flatten_cons, stacked_append E hne hfl, show Node.concat g d :: ns = [.concat g d] ++ ns from rfl,
        stacked_append E (by simp) hns]
      simp only [ih, stacked_one, fin_concat]

/-- C82: images can be concatenated in groups exactly if they can be concatenated at once; both announce the
same and have the same array. -/
theorem C82_groups (E : Env V) {gs : List (List Node)} (hne : ∀ g ∈ gs, g ≠ []) :
    ((∃ ns n, Grouped gs ns ∧ mkConcat ns = .ok n) ↔ ∃ m, mkConcat gs.flatten = .ok m) ∧
    ∀ ns n m, Grouped gs ns → mkConcat ns = .ok n → mkConcat gs.flatten = .ok m →
      n.dsize = m.dsize ∧ n.channels = m.channels ∧ n.nchan = m.nchan ∧ den n = den m ∧
      ∀ i, fin E n = .ok i ↔ fin E m = .ok i := by
  refine ⟨⟨?_, ?_⟩, ?_⟩
  · rintro ⟨ns, n, hg, hn⟩
    obtain ⟨d, rfl, h1, h2⟩ := mkConcat_ok hn
    obtain ⟨k1, _⟩ := grouped_ok hg d h2
    refine ⟨_, mkConcat_of ?_ d ?_⟩
    · cases hg with
      | nil => exact (h1 rfl).elim
      | @cons g n gs ns h _ =>
        obtain ⟨_, _, hg', _⟩ := mkConcat_ok h
        simp [hg']
    · intro p hp
      obtain ⟨g, hgm, hpg⟩ := List.mem_flatten.1 hp
      exact (k1 g hgm).2 p hpg
  · rintro ⟨m, hm⟩
    obtain ⟨d, rfl, h1, h2⟩ := mkConcat_ok hm
    have hg : Grouped gs (gs.map fun g => Node.concat g d) := by
      unfold Grouped
      rw [List.forall₂_map_right_iff, List.forall₂_same]
      intro g hgm
      exact mkConcat_of (hne g hgm) d (fun p hp => h2 p (List.mem_flatten.2 ⟨g, hgm, hp⟩))
    refine ⟨_, _, hg, mkConcat_of ?_ d ?_⟩
    · intro e
      rw [List.map_eq_nil_iff] at e
      subst e
      exact h1 rfl
    · intro n hn
      obtain ⟨g, _, rfl⟩ := List.mem_map.1 hn
      rfl
  · intro ns n m hg hn hm
    obtain ⟨d, rfl, h1, h2⟩ := mkConcat_ok hn
    obtain ⟨d', rfl, h3, h4⟩ := mkConcat_ok hm
    obtain ⟨k1, k2, k3, k4⟩ := grouped_ok hg d h2
    refine ⟨?_, k2.symm, k3.symm, k4.symm, fun i => ?_⟩
    · obtain ⟨p, hp⟩ := List.exists_mem_of_ne_nil _ h3
      obtain ⟨g, hgm, hpg⟩ := List.mem_flatten.1 hp
      exact ((k1 g hgm).2 p hpg).symm.trans (h4 p hp)
    · rw [fin_concat, fin_concat]
      refine (grouped_fin E hg ?_ i).symm
      rintro rfl
      exact h3 rfl

/-- The image without groups can be built too. -/
theorem ungroup_built {n : Node} (hb : Built n) : Built (ungroup n) :=
  built_of _ (ungroup_wf n hb.ok.1) (ungroup_fit n hb.ok.2)

theorem eachl_append {f : Leaf → Prop} : ∀ ps qs : List Node, EachL f (ps ++ qs) ↔ EachL f ps ∧ EachL f qs
  | [], qs => by simp [EachL]
  | p :: ps, qs => by rw [List.cons_append, EachL, EachL, eachl_append ps qs, and_assoc]

theorem each_parts {f : Leaf → Prop} (p : Node) : EachL f (partsOf p) ↔ Each f p := by
  cases p <;> simp [partsOf, EachL, Each]

mutual
theorem ungroup_each {f : Leaf → Prop} : ∀ n : Node, Each f (ungroup n) ↔ Each f n
  | .leaf l => Iff.rfl
  | .concat ps d => by rw [ungroup, Each, Each, ungroupL_each ps]
  | .warp s _ _ _ => by rw [ungroup, Each, Each, ungroup_each s]
  | .crop s _ _ _ _ _ => by rw [ungroup, Each, Each, ungroup_each s]
  | .overview s _ _ => by rw [ungroup, Each, Each, ungroup_each s]
  | .dequant s _ _ => by rw [ungroup, Each, Each, ungroup_each s]
theorem ungroupL_each {f : Leaf → Prop} : ∀ ps : List Node, EachL f (ungroupL ps) ↔ EachL f ps
  | [] => Iff.rfl
  | p :: ps => by rw [ungroupL, eachl_append, each_parts, ungroup_each p, ungroupL_each ps, EachL]
end

theorem flatl_append (ps qs : List Node) : FlatL (ps ++ qs) ↔ FlatL ps ∧ FlatL qs := by
  simp only [FlatL_iff, List.mem_append, or_imp, forall_and]

theorem flat_parts (p : Node) : FlatL (partsOf p) ↔ Flat p := by
  cases p <;> simp [partsOf, FlatL, Flat]

mutual
theorem ungroup_flat : ∀ n : Node, Flat (ungroup n) ↔ Flat n
  | .leaf l => Iff.rfl
  | .concat ps d => by rw [ungroup, Flat, Flat, ungroupL_flat ps]
  | .warp s _ _ _ => by rw [ungroup, Flat, Flat]
  | .crop s _ _ _ _ _ => by rw [ungroup, Flat, Flat, ungroup_flat s]
  | .overview s _ _ => by rw [ungroup, Flat, Flat]
  | .dequant s _ _ => by rw [ungroup, Flat, Flat, ungroup_flat s]
theorem ungroupL_flat : ∀ ps : List Node, FlatL (ungroupL ps) ↔ FlatL ps
  | [] => Iff.rfl
  | p :: ps => by rw [ungroupL, flatl_append, flat_parts, ungroup_flat p, ungroupL_flat ps, FlatL]
end

/-- C82: selecting channels by position gives the same names, size and pixels with and without groups. -/
theorem C82_select {E : Env V} (hG : Groupless E) (hE : Env.Shaped E) {n : Node} (hb : Built n)
    (hm : Each E.Matches n) {i : Img V} (hi : fin E n = .ok i) {idxs : List Nat} (hr : ∀ m ∈ idxs, m < n.nchan)
    {t u : Node} (ht : takeIdx n idxs = .ok t) (hu : takeIdx (ungroup n) idxs = .ok u) :
    t.channels = u.channels ∧ t.dsize = u.dsize ∧ ∃ a b, fin E t = .ok a ∧ fin E u = .ok b ∧ a.Same b := by
  obtain ⟨t1, t2, a, ha, a1, a2, a3, a4⟩ := C27_take_by_index hE hb hm hi hr ht
  obtain ⟨u1, u2, b, hb', b1, b2, b3, b4⟩ := C27_take_by_index hE (ungroup_built hb) ((ungroup_each n).2 hm)
    ((ungroup_fin hG n hb.ok.1 i).2 hi) (fun m h => by rw [ungroup_nchan]; exact hr m h) hu
  refine ⟨?_, ?_, a, b, ha, hb', by omega, by omega, by omega, ?_⟩
  · rw [t1, u1, ungroup_channels]
  · rw [t2, u2, ungroup_dsize]
  intro y x k hy hx hk
  have hlt : k < idxs.length := by omega
  have e : idxs[k]? = some idxs[k] := List.getElem?_eq_getElem hlt
  rw [a4 k _ e y x (by omega) (by omega), b4 k _ e y x (by omega) (by omega)]

/-- C82: the same with selection by distinct codes. -/
theorem C82_select_codes {E : Env V} (hG : Groupless E) (hE : Env.Shaped E) {n : Node} (hb : Built n)
    (hm : Each E.Matches n) {i : Img V} (hi : fin E n = .ok i) {names : List Str} (hn : n.channels = some names)
    (hd : names.Nodup) {codes : List Str} {policy : Policy} {t u : Node} (ht : takeNames n codes policy = .ok t)
    (hu : takeNames (ungroup n) codes policy = .ok u) :
    t.channels = u.channels ∧ t.dsize = u.dsize ∧ ∃ a b, fin E t = .ok a ∧ fin E u = .ok b ∧ a.Same b := by
  obtain ⟨t1, t2, a, ha, a1, a2, a3, a4⟩ := C27_take_by_code_partial hE hb hm hi hn hd ht
  obtain ⟨u1, u2, b, hb', b1, b2, b3, b4⟩ := C27_take_by_code_partial hE (ungroup_built hb) ((ungroup_each n).2 hm)
    ((ungroup_fin hG n hb.ok.1 i).2 hi) ((ungroup_channels n).trans hn) hd hu
  refine ⟨t1.trans u1.symm, ?_, a, b, ha, hb', by omega, by omega, by omega, ?_⟩
  · rw [t2, u2, ungroup_dsize]
  intro y x k hy hx hk
  have hlt : k < codes.length := by omega
  have e : codes[k]? = some codes[k] := List.getElem?_eq_getElem hlt
  obtain ⟨p1, p2⟩ := a4 k _ e y x (by omega) (by omega)
  obtain ⟨q1, q2⟩ := b4 k _ e y x (by omega) (by omega)
  by_cases hc : codes[k] ∈ names
  · obtain ⟨m, hm'⟩ := List.getElem?_of_mem hc
    rw [p1 m hm', q1 m hm']
  · rw [p2 hc, q2 hc]

/-- C82, arrays of `finalize()`, which optimizes: crops, channel selections, dequantizations and concats of
files in any order (`Flat`) give the same array with and without groups.  Missing: warps and overviews. -/
theorem C82_optimized_partial (H : Heur) {E : Env V} (hG : Groupless E) {n : Node} (hb : Built n) (hf : Flat n)
    (hm : Each E.Matches n) (hq : ∀ q, E.deq q E.nan = E.nan) {fuel fuel' : Nat} {m m' : Node}
    (h : opt H fuel n = .ok m) (h' : opt H fuel' (ungroup n) = .ok m') :
    ∃ a b, finalize H E fuel n = .ok a ∧ finalize H E fuel' (ungroup n) = .ok b ∧ a.Same b := by
  obtain ⟨i, a, hi, ha, s1⟩ := C36_arrays_flat_partial H E hb hf hm hq fuel h
  obtain ⟨j, b, hj, hb', s2⟩ := C36_arrays_flat_partial H E (ungroup_built hb) ((ungroup_flat n).2 hf)
    ((ungroup_each n).2 hm) hq fuel' h'
  rw [(ungroup_fin hG n hb.ok.1 i).2 hi] at hj
  cases hj
  refine ⟨a, b, ha, hb', s1.h.symm.trans s2.h, s1.w.symm.trans s2.w, s1.n.symm.trans s2.n, ?_⟩
  intro y x k hy hx hk
  rw [← s1.px y x k (by rw [s1.h]; exact hy) (by rw [s1.w]; exact hx) (by rw [s1.n]; exact hk),
    s2.px y x k (by rw [s1.h]; exact hy) (by rw [s1.w]; exact hx) (by rw [s1.n]; exact hk)]

/-- Two groups, the first with a group in it. -/
def threeDeep : Node :=
  .crop (.concat [.concat [.leaf rgbLeaf, .concat [.leaf { rgbLeaf with id := 2 }] (5, 4)] (5, 4),
    .dequant (.concat [.leaf { rgbLeaf with id := 3 }, .leaf rgbLeaf] (5, 4)) ⟨0, 1, 0, 255, none⟩ (5, 4)] (5, 4))
    1 3 0 2 (some [8, 4, 0])

example : Built threeDeep ∧ Flat threeDeep ∧ Groupless gridEnv ∧ Each gridEnv.Matches threeDeep ∧
    ungroup threeDeep = .crop (.concat [.leaf rgbLeaf, .leaf { rgbLeaf with id := 2 },
      .dequant (.concat [.leaf { rgbLeaf with id := 3 }, .leaf rgbLeaf] (5, 4)) ⟨0, 1, 0, 255, none⟩ (5, 4)] (5, 4))
      1 3 0 2 (some [8, 4, 0]) ∧
    (opt Heur.code 40 threeDeep).isOk = true ∧ (opt Heur.code 40 (ungroup threeDeep)).isOk = true := by
  have hl : ∀ k, ({ rgbLeaf with id := k } : Leaf).WF ∧ Nonneg ({ rgbLeaf with id := k } : Leaf).dsize := by
    intro k
    refine ⟨⟨?_, ?_⟩, (by decide : (0 : Int) ≤ 5), (by decide : (0 : Int) ≤ 4)⟩
    · intro l e
      simp only [rgbLeaf, Option.some.injEq] at e
      subst e
      rfl
    · intro e
      simp [rgbLeaf] at e
  have hm : ∀ k, gridEnv.Matches { rgbLeaf with id := k } := fun k _ => ⟨rfl, rfl, rfl⟩
  refine ⟨built_of _ ?_ ?_, ?_, fun _ _ _ => rfl, ?_, rfl, by decide +kernel, by decide +kernel⟩
  · refine ⟨⟨by simp, ⟨⟨by simp, (hl 1).1, rfl, ⟨by simp, (hl 2).1, rfl, trivial⟩, rfl, trivial⟩, rfl,
      ⟨by simp, (hl 3).1, rfl, (hl 1).1, rfl, trivial⟩, rfl, trivial⟩⟩, by decide, by decide, ?_⟩
    intro i hi
    simp only [List.mem_cons, List.not_mem_nil, or_false] at hi
    rcases hi with rfl | rfl | rfl <;> decide
  · have h0 := (hl 0).2
    exact ⟨⟨h0, ⟨h0, (hl 1).2, ⟨h0, (hl 2).2, trivial⟩, trivial⟩,
      ⟨⟨h0, (hl 3).2, (hl 1).2, trivial⟩, rfl⟩, trivial⟩, by decide, by decide, by decide, by decide⟩
  · exact ⟨⟨trivial, ⟨trivial, trivial⟩, trivial⟩, ⟨trivial, trivial, trivial⟩, trivial⟩
  · exact ⟨⟨hm 1, ⟨hm 2, trivial⟩, trivial⟩, ⟨hm 3, hm 1, trivial⟩, trivial⟩

example : Grouped [[.leaf rgbLeaf], [.leaf { rgbLeaf with id := 2 }, .leaf rgbLeaf]]
    [.concat [.leaf rgbLeaf] (5, 4), .concat [.leaf { rgbLeaf with id := 2 }, .leaf rgbLeaf] (5, 4)] :=
  .cons rfl (.cons rfl .nil)

end Verif.Props
