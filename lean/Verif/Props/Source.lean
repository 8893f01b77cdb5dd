/-
C69: channels do not influence each other.  C70: missing channels stay NaN.
-/
import Verif.SrcRules
import Verif.Props.Check
import Verif.Props.Concat

namespace Verif.Props

open Tree Helpers Tree.Node

variable {V : Type} {E : Env V}

/-- `optimize` makes no warps with other parameters than the given and the default ones. -/
theorem stable_params {P : Algo → Prop} (hP : ∀ a, P a → P a.common) (hd : P .default) :
    Stable (fun n => ∀ a ∈ warpAlgos n, P a) where
  sub := by
    intro n x hn h
    cases n with
    | leaf l => simp [subOf] at h
    | concat _ _ => simp [subOf] at h
    | warp s _ _ a => cases h; exact fun b hb => hn b (List.mem_cons_of_mem _ hb)
    | crop s _ _ _ _ _ => cases h; exact hn
    | overview s _ _ => cases h; exact hn
    | dequant s _ _ => cases h; exact hn
  parts := fun h p hp a ha => h a ((mem_warpAlgosL _).2 ⟨p, hp, ha⟩)
  concat := by
    intro ps d qs d' _ hq a ha
    obtain ⟨q, hq', ha⟩ := (mem_warpAlgosL _).1 ha
    exact hq q hq' a ha
  nan := fun _ _ a ha => by cases ha
  nanLike := fun _ _ _ _ a ha => by cases ha
  crop := fun _ _ _ _ _ h => h
  deq := fun _ _ h => h
  warp := by
    intro s tf d a s' tf' d' h h' b hb
    rcases List.mem_cons.1 hb with rfl | hb
    · exact h _ (List.mem_cons_self ..)
    · exact h' b hb
  common := by
    intro s tf d a h b hb
    rcases List.mem_cons.1 hb with rfl | hb
    · exact hP _ (h _ (List.mem_cons_self ..))
    · exact h b (List.mem_cons_of_mem _ hb)
  ovOfWarp := fun _ _ h _ _ b hb => h b (List.mem_cons_of_mem _ hb)
  ov := fun _ _ _ h => h
  warpOfOv := by
    intro s k d s' tf' d' _ h b hb
    rcases List.mem_cons.1 hb with rfl | hb
    · exact hd
    · exact h b hb

/-- C52: every warp in an optimized image, with overviews as well, has the parameters of one warp of the image, where
only the backend may be replaced by 'auto', or the default ones. -/
theorem C52_origin (H : Heur) {n : Node} (hb : Built n) (fuel : Nat) {m : Node} (h : opt H fuel n = .ok m) :
    ∀ a ∈ warpAlgos m, a = ⟨.other 0, true, none, 0, 0⟩ ∨ ∃ b ∈ warpAlgos n, a.interp = b.interp ∧
      a.antialias = b.antialias ∧ a.border = b.border ∧ a.noopEps = b.noopEps ∧
      (a.backend = b.backend ∨ a.backend = 0) := by
  have hs := stable_params (P := fun a => a = ⟨.other 0, true, none, 0, 0⟩ ∨ ∃ b ∈ warpAlgos n, a.interp = b.interp ∧
      a.antialias = b.antialias ∧ a.border = b.border ∧ a.noopEps = b.noopEps ∧
      (a.backend = b.backend ∨ a.backend = 0)) (by
    rintro a (rfl | ⟨b, hb, h1, h2, h3, h4, _⟩)
    · exact .inl rfl
    · exact .inr ⟨b, hb, h1, h2, h3, h4, .inr rfl⟩) (.inl rfl)
  exact (opt_good (deep := false) (keepRules H (nameRules H) hs) (by simp) fuel _ m
    ⟨hb.ok.1, fun a ha => .inr ⟨a, ha, rfl, rfl, rfl, rfl, .inl rfl⟩⟩ h).inv.2

/-- C52: with overviews every warp that `finalize(**k)` carries out uses the given parameters or the default ones. -/
theorem C52_given_or_default (H : Heur) {n : Node} (hb : Built n) (k : Kwargs) (fuel : Nat)
    {m : Node} (h : opt H fuel (setParams k n) = .ok m) :
    ∀ a ∈ warpAlgos m, Obeys k a ∨ a = ⟨.other 0, true, none, 0, 0⟩ := by
  have hs := stable_params (P := fun a => Obeys k a ∨ a = ⟨.other 0, true, none, 0, 0⟩) (by
    rintro a (h | rfl)
    · exact .inl ⟨h.interp, h.antialias, h.border, h.noopEps⟩
    · exact .inr rfl) (.inr rfl)
  refine (opt_good (deep := false) (keepRules H (nameRules H) hs) (by simp) fuel _ m
    ⟨wf_setParams k n hb.ok.1, fun a ha => ?_⟩ h).inv.2
  rw [setParams_algos] at ha
  obtain ⟨b, _, rfl⟩ := List.mem_map.1 ha
  exact .inl (update_obeys k b)

/-- Both cases happen: the cubic warp of `halfCrop` becomes a linear one, that of an image without overviews stays. -/
example : (∃ m, opt Heur.code 40 (setParams cubic halfCrop) = .ok m ∧ ∃ a ∈ warpAlgos m, ¬ Obeys cubic a) ∧
    ∃ m, opt Heur.code 40 (setParams cubic (mkWarp (.leaf rgbLeaf) (.scale 2) none .default)) = .ok m ∧
      ∃ a ∈ warpAlgos m, Obeys cubic a := by
  constructor
  · obtain ⟨m, h1, h2⟩ := holds_ok (x := opt Heur.code 40 (setParams cubic halfCrop))
      (f := fun m => decide (warpAlgos m = [.default])) (by decide +kernel)
    refine ⟨m, h1, .default, by simp [of_decide_eq_true h2], fun h => ?_⟩
    exact absurd (h.interp _ rfl) (by decide)
  · obtain ⟨m, h1, h2⟩ := holds_ok (x := opt Heur.code 40 (setParams cubic (mkWarp (.leaf rgbLeaf) (.scale 2) none .default)))
      (f := fun m => decide (warpAlgos m = [⟨.other 2, true, none, 0, 0⟩])) (by decide +kernel)
    exact ⟨m, h1, _, by rw [of_decide_eq_true h2]; exact List.mem_cons_self .., by constructor <;> decide⟩

/-- C69: every channel of an optimized image comes from the same channel of the same file as before, through the
same dequantizations, and has the same code; whatever the tolerances are, with overviews, and for channels without
any data inside the canvas, too. -/
theorem C69_origin (H : Heur) {n : Node} (hb : Built n) (fuel : Nat) {m : Node} (h : opt H fuel n = .ok m) :
    src m = src n ∧ m.nchan = n.nchan ∧ m.channels = n.channels := by
  have g := (opt_good (deep := false) (srcRules H) (by simp) fuel n m hb.ok.1 h).rel
  exact ⟨g.src, g.names.nchan, g.names.channels⟩

/-! #### independence -/

/-- Arrays with the same shape and the same channel `k`. -/
structure SameAt (k : Nat) (a b : Img V) : Prop where
  h : a.h = b.h
  w : a.w = b.w
  n : a.n = b.n
  px : k < a.n → ∀ y x, y < a.h → x < a.w → a.px y x k = b.px y x k

/-- The external functions treat every channel by itself, and shapes depend on shapes only. -/
structure Env.Channelwise (E : Env V) : Prop where
  warp : ∀ tf d a k i j, SameAt k i j → SameAt k (E.warp tf d a i) (E.warp tf d a j)
  resize : ∀ d k i j, SameAt k i j → SameAt k (E.resize d i) (E.resize d j)
  overview : ∀ s o k i j, SameAt k i j → SameAt k (E.overview s o i) (E.overview s o j)

/-- The same exception, or arrays with the same shape and the same channel `k`. -/
def SameChannel (k : Nat) (x y : Py (Img V)) : Prop :=
  (∃ e, x = .error e ∧ y = .error e) ∨ ∃ a b, x = .ok a ∧ y = .ok b ∧ SameAt k a b

mutual
/-- Nearest neighbour warps are aligned with the axes. -/
def Calm : Node → Prop
  | .leaf _ => True
  | .concat ps _ => CalmL ps
  | .warp s tf _ a => (a.interp = .nearest → axisAligned tf = true) ∧ Calm s
  | .crop s _ _ _ _ _ => Calm s
  | .overview s _ _ => Calm s
  | .dequant s _ _ => Calm s
def CalmL : List Node → Prop
  | [] => True
  | p :: ps => Calm p ∧ CalmL ps
end

mutual
theorem calm_smooth : ∀ n : Node, Smooth n → Calm n
  | .leaf _, _ => trivial
  | .concat ps _, h => calm_smoothL ps h
  | .warp s _ _ _, h => ⟨fun e => absurd e h.1, calm_smooth s h.2⟩
  | .crop s _ _ _ _ _, h => calm_smooth s h
  | .overview s _ _, h => calm_smooth s h
  | .dequant s _ _, h => calm_smooth s h
theorem calm_smoothL : ∀ ps : List Node, SmoothL ps → CalmL ps
  | [], _ => trivial
  | p :: ps, h => ⟨calm_smooth p h.1, calm_smoothL ps h.2⟩
end

theorem sliced_lt {D : Nat} {a b : Option Int} {y : Nat} (h : y < (npSlice D a b).length) :
    (npSlice D a b).getD y 0 < D := by
  rw [List.getD_eq_getElem _ _ h]
  have := List.getElem_mem h
  simp only [npSlice, List.mem_filter, List.mem_range] at this
  exact this.1

theorem sameAt_slice {k : Nat} {a b : Img V} (h : SameAt k a b) (ysl xsl : Option Int × Option Int) :
    SameAt k (a.slice ysl xsl) (b.slice ysl xsl) := by
  simp only [Img.slice, ← h.h, ← h.w]
  exact ⟨rfl, rfl, h.n, fun hk y x hy hx => h.px hk _ _ (sliced_lt hy) (sliced_lt hx)⟩

theorem finWarp_alike (hE : Env.Channelwise E) (img' : Nat → Img V) {tf : Affine} {d : Int × Int} {a : Algo}
    (hc : a.interp = .nearest → axisAligned tf = true) {k : Nat} {i j : Img V} (h : SameAt k i j) :
    SameChannel k (finWarp E tf d a i) (finWarp { E with img := img' } tf d a j) := by
  unfold finWarp
  by_cases hn : a.interp = .nearest
  · simp only [hn, hc hn, if_true]
    split
    · unfold nearestWarp
      by_cases hd : d.1 < 0 ∨ d.2 < 0
      · simp only [hd, if_true]; exact .inl ⟨_, rfl, rfl⟩
      · simp only [hd, if_false, ← h.h, ← h.w, ← h.n]
        have key : SameAt k
            ⟨d.2.toNat, d.1.toNat, i.n, fun y x k =>
              if 0 ≤ nearestIdx tf.d tf.ty y ∧ nearestIdx tf.d tf.ty y < i.h ∧ 0 ≤ nearestIdx tf.a tf.tx x ∧
                nearestIdx tf.a tf.tx x < i.w then
                i.px (nearestIdx tf.d tf.ty y).toNat (nearestIdx tf.a tf.tx x).toNat k else E.border a⟩
            ⟨d.2.toNat, d.1.toNat, i.n, fun y x k =>
              if 0 ≤ nearestIdx tf.d tf.ty y ∧ nearestIdx tf.d tf.ty y < i.h ∧ 0 ≤ nearestIdx tf.a tf.tx x ∧
                nearestIdx tf.a tf.tx x < i.w then
                j.px (nearestIdx tf.d tf.ty y).toNat (nearestIdx tf.a tf.tx x).toNat k else E.border a⟩ := by
          refine ⟨rfl, rfl, rfl, fun hk y x _ _ => ?_⟩
          simp only
          split
          · exact h.px hk _ _ (by omega) (by omega)
          · rfl
        split
        · split
          · exact .inr ⟨_, _, rfl, rfl, key⟩
          · exact .inl ⟨_, rfl, rfl⟩
        · exact .inr ⟨_, _, rfl, rfl, key⟩
    · exact .inr ⟨_, _, rfl, rfl, hE.resize _ _ _ _ h⟩
  · simp only [hn, if_false]
    exact .inr ⟨_, _, rfl, rfl, hE.warp _ _ _ _ _ _ h⟩

/-- Two collections of files: the same shapes, and the channel that channel `k` comes from, if any, is the same. -/
structure SameSource (img img' : Nat → Img V) (c : Option Src) : Prop where
  shape : ∀ id, (img id).h = (img' id).h ∧ (img id).w = (img' id).w ∧ (img id).n = (img' id).n
  px : ∀ s id ch, c = some s → s.leaf = some (id, ch) → ch < (img id).n → ∀ y x, y < (img id).h → x < (img id).w →
    (img id).px y x ch = (img' id).px y x ch

theorem SameSource.none {img img' : Nat → Img V} {c : Option Src} (h : SameSource img img' c) :
    SameSource img img' none := ⟨h.shape, fun _ _ _ e => by cases e⟩

theorem SameSource.at {img img' : Nat → Img V} {c : Option Src} (h : SameSource img img' c) {c' : Option Src}
    (hc : ∀ s, c' = some s → ∃ t, c = some t ∧ t.leaf = s.leaf) : SameSource img img' c' :=
  ⟨h.shape, fun s id ch e e' => by
    obtain ⟨t, h1, h2⟩ := hc s e
    exact h.px t id ch h1 (h2.trans e')⟩

mutual
theorem fin_alike (hS : Env.Shaped E) (hE : Env.Channelwise E) (img' : Nat → Img V) : ∀ (n : Node), Calm n →
    Each E.Matches n → ∀ k, SameSource E.img img' (src n)[k]? →
    SameChannel k (fin E n) (fin { E with img := img' } n)
  | .leaf l, _, hm, k, h => by
    unfold fin
    by_cases hn : l.nan = true
    · simp only [hn, if_true]
      split
      · exact .inl ⟨_, rfl, rfl⟩
      · exact .inr ⟨_, _, rfl, rfl, rfl, rfl, rfl, fun _ _ _ _ _ => rfl⟩
    · simp only [hn, if_false, Bool.false_eq_true]
      obtain ⟨e1, e2, e3⟩ := h.shape l.id
      refine .inr ⟨_, _, rfl, rfl, e1, e2, e3, fun hk y x hy hx => ?_⟩
      have hk' : k < l.nchan := by rw [← (hm (by simpa using hn)).2.2]; exact hk
      exact h.px ⟨some (l.id, k), []⟩ l.id k (by simp [src, hn, hk']) rfl hk y x hy hx
  | .concat ps d, hc, hm, k, h => by
    rw [src_concat] at h
    unfold fin
    rcases finL_alike hS hE img' ps hc hm k h with ⟨e, h1, h2⟩ | ⟨as, bs, h1, h2, _, h3⟩
    · rw [h1, h2]; exact .inl ⟨_, rfl, rfl⟩
    · rw [h1, h2]; exact h3
  | .warp s tf d a, hc, hm, k, h => by
    rw [src_warp] at h
    unfold fin
    rcases fin_alike hS hE img' s hc.2 hm k h with ⟨e, h1, h2⟩ | ⟨i, j, h1, h2, h3⟩
    · rw [h1, h2]; exact .inl ⟨_, rfl, rfl⟩
    · rw [h1, h2]; exact finWarp_alike hE img' hc.1 h3
  | .crop s y0 y1 x0 x1 c, hc, hm, k, h => by
    rw [src_crop] at h
    unfold fin
    cases c with
    | none =>
      rcases fin_alike hS hE img' s hc hm k h with ⟨e, h1, h2⟩ | ⟨i, j, h1, h2, h3⟩
      · rw [h1, h2]; exact .inl ⟨_, rfl, rfl⟩
      · rw [h1, h2]; exact .inr ⟨_, _, rfl, rfl, sameAt_slice h3 _ _⟩
    | some c =>
      have hk : SameSource E.img img' (src s)[(c[k]?).getD s.nchan]? := by
        cases ck : c[k]? with
        | none =>
          refine h.at fun t ht => ?_
          rw [Option.getD_none, List.getElem?_eq_none (by rw [src_length])] at ht
          cases ht
        | some m =>
          refine h.at fun t ht => ⟨t, ?_, rfl⟩
          simp only [Option.getD_some] at ht
          simp [selSrc, pick, ck, List.getD, ht]
      rcases fin_alike hS hE img' s hc hm _ hk with ⟨e, h1, h2⟩ | ⟨i, j, h1, h2, h3⟩
      · rw [h1, h2]; exact .inl ⟨_, rfl, rfl⟩
      · rw [h1, h2]
        have h4 := sameAt_slice h3 (some y0, some y1) (some x0, some x1)
        simp only [Img.select, ← h4.n]
        split
        · rename_i hall
          refine .inr ⟨_, _, rfl, rfl, h4.h, h4.w, rfl, fun hk' y x hy hx => ?_⟩
          simp only at hk' hy hx ⊢
          have hget : c[k]? = some c[k] := List.getElem?_eq_getElem hk'
          rw [hget, Option.getD_some] at h4
          rw [List.getD_eq_getElem _ _ hk']
          refine h4.px ?_ y x hy hx
          rw [List.all_eq_true] at hall
          simpa using hall _ (List.getElem_mem hk')
        · exact .inl ⟨_, rfl, rfl⟩
  | .overview s o d, hc, hm, k, h => by
    rw [src_overview] at h
    unfold fin
    rcases fin_alike hS hE img' s hc hm k h with ⟨e, h1, h2⟩ | ⟨i, j, h1, h2, h3⟩
    · rw [h1, h2]; exact .inl ⟨_, rfl, rfl⟩
    · rw [h1, h2]; exact .inr ⟨_, _, rfl, rfl, hE.overview _ _ _ _ _ h3⟩
  | .dequant s q d, hc, hm, k, h => by
    have hk : SameSource E.img img' (src s)[k]? := by
      refine h.at fun t ht => ⟨t.deq q, ?_, rfl⟩
      rw [src_dequant, List.getElem?_map, ht]; rfl
    unfold fin
    rcases fin_alike hS hE img' s hc hm k hk with ⟨e, h1, h2⟩ | ⟨i, j, h1, h2, h3⟩
    · rw [h1, h2]; exact .inl ⟨_, rfl, rfl⟩
    · rw [h1, h2]
      refine .inr ⟨_, _, rfl, rfl, h3.h, h3.w, h3.n, fun hk y x hy hx => ?_⟩
      simp only
      rw [h3.px hk y x hy hx]
theorem finL_alike (hS : Env.Shaped E) (hE : Env.Channelwise E) (img' : Nat → Img V) : ∀ (ps : List Node),
    CalmL ps → EachL E.Matches ps → ∀ k, SameSource E.img img' (srcL ps)[k]? →
    (∃ e, finL E ps = .error e ∧ finL { E with img := img' } ps = .error e) ∨
    ∃ as bs, finL E ps = .ok as ∧ finL { E with img := img' } ps = .ok bs ∧ (as = [] ↔ bs = []) ∧
      SameChannel k (catAll as) (catAll bs)
  | [], _, _, _, _ => .inr ⟨[], [], rfl, rfl, Iff.rfl, .inl ⟨_, rfl, rfl⟩⟩
  | p :: ps, hc, hm, k, h => by
    simp only [srcL] at h
    have hp : SameSource E.img img' (src p)[k]? := by
      refine h.at fun t ht => ⟨t, ?_, rfl⟩
      rw [List.getElem?_append_left (List.getElem?_eq_some_iff.1 ht).1, ht]
    have hps : SameSource E.img img' (srcL ps)[if k < p.nchan then nchans ps else k - p.nchan]? := by
      refine h.at fun t ht => ⟨t, ?_, rfl⟩
      split at ht
      · rw [List.getElem?_eq_none (by rw [srcL_length])] at ht; cases ht
      · rw [List.getElem?_append_right (by rw [src_length]; omega), src_length, ht]
    unfold finL
    rcases fin_alike hS hE img' p hc.1 hm.1 k hp with ⟨e, h1, h2⟩ | ⟨i, j, h1, h2, h3⟩
    · rw [h1, h2]; exact .inl ⟨_, rfl, rfl⟩
    have hin := fin_count hS p hm.1 i h1
    rcases finL_alike hS hE img' ps hc.2 hm.2 _ hps with ⟨e, g1, g2⟩ | ⟨as, bs, g1, g2, g3, g4⟩
    · rw [h1, h2, g1, g2]; exact .inl ⟨_, rfl, rfl⟩
    rw [h1, h2, g1, g2]
    refine .inr ⟨_, _, rfl, rfl, by simp, ?_⟩
    cases as with
    | nil =>
      obtain rfl := g3.1 rfl
      exact .inr ⟨_, _, rfl, rfl, h3⟩
    | cons a as =>
      cases bs with
      | nil => exact absurd (g3.2 rfl) (by simp)
      | cons b bs =>
        have cx : ∀ {x : Img V} {l : List (Img V)}, l ≠ [] → catAll (x :: l) =
            match catAll l with
            | .error e => .error e
            | .ok b => if x.h = b.h ∧ x.w = b.w then .ok (x.cat b) else .error .valueError := by
          intro x l hl
          cases l with
          | nil => exact absurd rfl hl
          | cons => rfl
        rw [cx (x := i) (l := a :: as) (by simp), cx (x := j) (l := b :: bs) (by simp)]
        have hcount := finL_count hS ps hm.2 _ g1
        rcases g4 with ⟨e, f1, f2⟩ | ⟨c, c', f1, f2, f3⟩
        · rw [f1, f2]; exact .inl ⟨_, rfl, rfl⟩
        · have hcn := hcount c f1
          rw [f1, f2]
          simp only [← h3.h, ← h3.w, ← f3.h, ← f3.w]
          split
          · rename_i hs
            refine .inr ⟨_, _, rfl, rfl, h3.h, h3.w, by simp only [Img.cat, h3.n, f3.n], fun hk y x hy hx => ?_⟩
            simp only [Img.cat] at hk hy hx ⊢
            rw [← h3.n]
            split
            · rename_i hlt; exact h3.px hlt y x hy hx
            · rename_i hge
              have e : (if k < p.nchan then nchans ps else k - p.nchan) = k - i.n := by
                rw [if_neg (by omega), hin]
              rw [e] at f3
              exact f3.px (by omega) y x (by omega) (by omega)
          · exact .inl ⟨_, rfl, rfl⟩
end

/-- C69: channel `k` of the array of an image depends on nothing but the channel it comes from: if the files are
exchanged for others with the same shapes and with the same contents in that channel, then channel `k` is unchanged,
whatever happens to all other channels.  (Nearest neighbour warps must be aligned with the axes.) -/
theorem C69_independent (hS : Env.Shaped E) (hE : Env.Channelwise E) {n : Node} (hc : Calm n)
    (hm : Each E.Matches n) (img' : Nat → Img V) {k : Nat} (h : SameSource E.img img' (src n)[k]?) :
    SameChannel k (fin E n) (fin { E with img := img' } n) :=
  fin_alike hS hE img' n hc hm k h

/-- C69 for `finalize()` with its default, which optimizes: channel `k` depends on nothing but the channel that the
image as it was built has it from.  Missing: nearest neighbour warps. -/
theorem C69_independent_default_partial (H : Heur) (hS : Env.Shaped E) (hE : Env.Channelwise E) {n : Node} (hb : Built n)
    (hs : Smooth n) (hm : Each E.Matches n) (fuel : Nat) (img' : Nat → Img V) {k : Nat}
    (h : SameSource E.img img' (src n)[k]?) :
    SameChannel k (finalize H E fuel n) (finalize H { E with img := img' } fuel n) := by
  unfold finalize
  cases ho : opt H fuel n with
  | error e => exact .inl ⟨_, rfl, rfl⟩
  | ok m =>
    have g := opt_good (deep := false) (keepRules H (nameRules H) (stable_each E.Matches (fun _ _ _ h => by cases h)))
      (by simp) fuel n m ⟨hb.ok.1, hm⟩ ho
    have s := opt_good (deep := false) (keepRules H (nameRules H)
      (stable_params (P := fun a => a.interp ≠ .nearest) (fun _ h => h) (by decide))) (by simp) fuel n m
      ⟨hb.ok.1, (smooth_iff n).1 hs⟩ ho
    refine fin_alike hS hE img' m (calm_smooth m ((smooth_iff m).2 s.inv.2)) g.inv.2 k ?_
    rw [(C69_origin H hb fuel ho).1]
    exact h

/-! #### NaN -/

/-- Channel `k` is NaN everywhere. -/
def NanAt (E : Env V) (k : Nat) (a : Img V) : Prop :=
  k < a.n → ∀ y x, y < a.h → x < a.w → a.px y x k = E.nan

/-- The external functions make nothing but NaN out of NaN, and the border is NaN unless another value is asked
for. -/
structure Env.KeepsNan (E : Env V) : Prop where
  deq : ∀ q, E.deq q E.nan = E.nan
  border : ∀ a : Algo, a.border = none → E.border a = E.nan
  warp : ∀ tf d (a : Algo) k i, a.border = none → NanAt E k i → NanAt E k (E.warp tf d a i)
  resize : ∀ d k i, NanAt E k i → NanAt E k (E.resize d i)
  overview : ∀ s o k i, NanAt E k i → NanAt E k (E.overview s o i)

theorem nanAt_slice {k : Nat} {a : Img V} (h : NanAt E k a) (ysl xsl : Option Int × Option Int) :
    NanAt E k (a.slice ysl xsl) := fun hk _ _ hy hx => h hk _ _ (sliced_lt hy) (sliced_lt hx)

theorem guess_nan (hE : Env.KeepsNan E) {tf : Affine} {d : Int × Int} {a : Algo} (hb : a.border = none) {k : Nat}
    {i : Img V} (h : NanAt E k i) : NanAt E k (nearestGuess E tf d a i) := by
  unfold nearestGuess
  by_cases c0 : i.values.filter E.finite = [] <;> simp only [c0, if_true, if_false] <;>
    (split
     · exact hE.resize _ _ _ h
     · split
       · exact hE.warp _ _ _ _ _ hb h
       · exact hE.warp _ _ _ _ _ hb h)

theorem finWarp_nan (hS : Env.Shaped E) (hE : Env.KeepsNan E) {tf : Affine} {d : Int × Int} {a : Algo}
    (hb : a.border = none) {k : Nat} {i j : Img V} (h : NanAt E k i) (hj : finWarp E tf d a i = .ok j) :
    NanAt E k j := by
  unfold finWarp at hj
  split at hj
  · split at hj
    · split at hj
      · unfold nearestWarp at hj
        split at hj
        · cases hj
        · have key : ∀ j : Img V, j = ⟨d.2.toNat, d.1.toNat, i.n, fun y x k =>
              if 0 ≤ nearestIdx tf.d tf.ty y ∧ nearestIdx tf.d tf.ty y < i.h ∧ 0 ≤ nearestIdx tf.a tf.tx x ∧
                nearestIdx tf.a tf.tx x < i.w then
                i.px (nearestIdx tf.d tf.ty y).toNat (nearestIdx tf.a tf.tx x).toNat k else E.border a⟩ →
              NanAt E k j := by
            rintro _ rfl hk y x _ _
            simp only
            split
            · exact h hk _ _ (by omega) (by omega)
            · exact hE.border a hb
          simp only at hj
          split at hj
          · split at hj
            · cases hj; exact key _ rfl
            · cases hj
          · cases hj; exact key _ rfl
      · cases hj; exact hE.resize _ _ _ h
    · cases hj; exact guess_nan hE hb h
  · cases hj; exact hE.warp _ _ _ _ _ hb h

/-- The channel comes from nowhere. -/
def Nowhere (c : Option Src) : Prop := ∀ s, c = some s → s.leaf = none

mutual
theorem fin_nan (hS : Env.Shaped E) (hE : Env.KeepsNan E) : ∀ (n : Node), (∀ a ∈ warpAlgos n, a.border = none) →
    Each E.Matches n → ∀ k, Nowhere (src n)[k]? → ∀ i, fin E n = .ok i → NanAt E k i
  | .leaf l, _, hm, k, h, i, hi => by
    unfold fin at hi
    split at hi
    · split at hi
      · cases hi
      · cases hi; exact fun _ _ _ _ _ => rfl
    · rename_i hn
      cases hi
      intro hk
      have hk' : k < l.nchan := by rw [← (hm (by simpa using hn)).2.2]; exact hk
      have := h ⟨some (l.id, k), []⟩ (by simp [src, hn, hk'])
      cases this
  | .concat ps d, hb, hm, k, h, i, hi => by
    rw [src_concat] at h
    unfold fin at hi
    split at hi
    · cases hi
    · rename_i as has
      exact finL_nan hS hE ps hb hm k h as has i hi
  | .warp s tf d a, hb, hm, k, h, i, hi => by
    rw [src_warp] at h
    unfold fin at hi
    split at hi
    · cases hi
    · rename_i j hj
      exact finWarp_nan hS hE (hb a (List.mem_cons_self ..))
        (fin_nan hS hE s (fun b hb' => hb b (List.mem_cons_of_mem _ hb')) hm k h j hj) hi
  | .crop s y0 y1 x0 x1 c, hb, hm, k, h, i, hi => by
    rw [src_crop] at h
    unfold fin at hi
    split at hi
    · cases hi
    · rename_i j hj
      cases c with
      | none => cases hi; exact nanAt_slice (fin_nan hS hE s hb hm k h j hj) _ _
      | some c =>
        simp only [Img.select] at hi
        split at hi
        · rename_i hall
          cases hi
          intro hk y x hy hx
          simp only at hk hy hx ⊢
          have hget : c[k]? = some c[k] := List.getElem?_eq_getElem hk
          rw [List.getD_eq_getElem _ _ hk]
          have hn : Nowhere (src s)[c[k]]? := by
            intro t ht
            exact h t (by simp [selSrc, pick, hget, List.getD, ht])
          refine nanAt_slice (fin_nan hS hE s hb hm _ hn j hj) _ _ ?_ y x hy hx
          rw [List.all_eq_true] at hall
          simpa using hall _ (List.getElem_mem hk)
        · cases hi
  | .overview s o d, hb, hm, k, h, i, hi => by
    rw [src_overview] at h
    unfold fin at hi
    split at hi
    · cases hi
    · rename_i j hj
      cases hi
      exact hE.overview _ _ _ _ (fin_nan hS hE s hb hm k h j hj)
  | .dequant s q d, hb, hm, k, h, i, hi => by
    unfold fin at hi
    split at hi
    · cases hi
    · rename_i j hj
      cases hi
      have hn : Nowhere (src s)[k]? := by
        intro t ht
        exact h (t.deq q) (by rw [src_dequant, List.getElem?_map, ht]; rfl)
      intro hk y x hy hx
      simp only
      rw [fin_nan hS hE s hb hm k hn j hj hk y x hy hx, hE.deq]
theorem finL_nan (hS : Env.Shaped E) (hE : Env.KeepsNan E) : ∀ (ps : List Node),
    (∀ a ∈ warpAlgosL ps, a.border = none) → EachL E.Matches ps → ∀ k, Nowhere (srcL ps)[k]? →
    ∀ as, finL E ps = .ok as → ∀ i, catAll as = .ok i → NanAt E k i
  | [], _, _, _, _, as, has, i, hi => by cases has; cases hi
  | p :: ps, hb, hm, k, h, as, has, i, hi => by
    simp only [srcL] at h
    unfold finL at has
    split at has
    · cases has
    · rename_i a ha
      split at has
      · cases has
      · rename_i bs hbs
        cases has
        have hp : Nowhere (src p)[k]? := by
          intro t ht
          refine h t ?_
          rw [List.getElem?_append_left (List.getElem?_eq_some_iff.1 ht).1, ht]
        have h1 := fin_nan hS hE p (fun b hb' => hb b (List.mem_append_left _ hb')) hm.1 k hp a ha
        have hcount := fin_count hS p hm.1 a ha
        have ih : k ≥ a.n → ∀ c, catAll bs = .ok c → NanAt E (k - a.n) c := by
          intro hk c hc
          refine finL_nan hS hE ps (fun b hb' => hb b (List.mem_append_right _ hb')) hm.2 (k - a.n) ?_ bs hbs c hc
          intro t ht
          refine h t ?_
          rw [List.getElem?_append_right (by rw [src_length]; omega), src_length, ← hcount, ht]
        cases bs with
        | nil => cases hi; exact h1
        | cons b bs =>
          rw [catAll] at hi
          · split at hi
            · cases hi
            · rename_i c hc
              split at hi
              · rename_i hsh
                cases hi
                intro hk y x hy hx
                simp only [Img.cat] at hk hy hx ⊢
                split
                · rename_i hlt; exact h1 hlt y x hy hx
                · rename_i hge
                  exact ih (by omega) c hc (by omega) y x (by omega) (by omega)
              · cases hi
          · simp
end

/-- C70: a channel that comes from no file is NaN everywhere in the array of the image, whatever operations are
applied to it (the warps without a border value), and whether the image is optimized first or not. -/
theorem C70_stays_nan (H : Heur) (hS : Env.Shaped E) (hE : Env.KeepsNan E) {n : Node} (hb : Built n)
    (ha : ∀ a ∈ warpAlgos n, a.border = none) (hm : Each E.Matches n) {k : Nat} (h : Nowhere (src n)[k]?) :
    (∀ i, fin E n = .ok i → NanAt E k i) ∧ ∀ fuel i, finalize H E fuel n = .ok i → NanAt E k i := by
  refine ⟨fin_nan hS hE n ha hm k h, fun fuel i hi => ?_⟩
  unfold finalize at hi
  split at hi
  · cases hi
  · rename_i m ho
    have g := opt_good (deep := false) (keepRules H (nameRules H) (stable_each E.Matches (fun _ _ _ h => by cases h)))
      (by simp) fuel n m ⟨hb.ok.1, hm⟩ ho
    have s := opt_good (deep := false) (keepRules H (nameRules H)
      (stable_params (P := fun a => a.border = none) (fun _ h => h) rfl)) (by simp) fuel n m ⟨hb.ok.1, ha⟩ ho
    refine fin_nan hS hE m s.inv.2 g.inv.2 k ?_ i hi
    rw [(C69_origin H hb fuel ho).1]
    exact h

/-- C69: `take_channels` with codes (distinct ones): every channel of the result comes from where the channel with
this code came from, and from nowhere if the image has no such code. -/
theorem C69_take {n : Node} (hb : Built n) {names : List Str} (hn : n.channels = some names) (hd : names.Nodup)
    {codes : List Str} {policy : Policy} {t : Node} (h : takeNames n codes policy = .ok t) {k : Nat} {code : Str}
    (hk : codes[k]? = some code) :
    (∀ m : Nat, names[m]? = some code → (src t)[k]? = (src n)[m]?) ∧ (code ∉ names → (src t)[k]? = some ⟨none, []⟩) := by
  have hview := takeNamesIf_view srcView trivial hn (fun e => of_decide_eq_true e)
    (channels_length n names hb.ok.1 hn) hd h
  obtain ⟨c, h1, h2⟩ := forall₂_getElem? hview hk
  unfold SeenCode at h2
  constructor
  · intro m hm
    have hmem : code ∈ names := List.mem_of_getElem? hm
    split at h2
    · rename_i e
      exact absurd hmem (osetIndex_none.1 e)
    · rename_i m' e
      have g1 := osetIndex_nodup hd e
      have hlt := osetIndex_lt e
      have g2 : names[m']? = some code := by
        rw [List.getElem?_eq_getElem hlt, ← List.getD_eq_getElem _ [] hlt, g1]
      have : m' = m := (List.getElem?_inj hlt hd).1 (g2.trans hm.symm)
      subst this
      have hl : m' < (src n).length := by
        rw [src_length, ← channels_length n names hb.ok.1 hn]; exact hlt
      rw [h1, h2, List.getD_eq_getElem _ _ hl, List.getElem?_eq_getElem hl]
  · intro hmiss
    rw [osetIndex_none.2 hmiss] at h2
    rw [h1, h2]

/-- Later operations that leave the channels where they are. -/
inductive Later (t : Node) : Node → Prop
  | refl : Later t t
  | warp (s : Node) (tf : Affine) (d : Option (Int × Int)) (a : Algo) (h : Later t s) : Later t (mkWarp s tf d a)
  | crop (s n : Node) (sl : Space) (h : Later t s) (e : mkCrop s (some sl) none = .ok n) : Later t n
  | padded (s n : Node) (y0 y1 x0 x1 : Int) (pad : (Int × Int) × (Int × Int)) (h : Later t s)
      (e : paddedCrop s y0 y1 x0 x1 pad = .ok n) : Later t n
  | overview (s : Node) (k : Int) (h : Later t s) : Later t (mkOverview s k)
  | dequant (s : Node) (q : Quantization) (h : Later t s) : Later t (mkDequant s q)

theorem later_leafs {t n : Node} (h : Later t n) : (src n).map Src.leaf = (src t).map Src.leaf := by
  induction h with
  | refl => rfl
  | warp s tf d a _ ih => simp only [mkWarp, src_warp, ih]
  | crop s n sl _ e ih => rw [src_mkCrop e]; exact ih
  | padded s n y0 y1 x0 x1 pad _ e ih => rw [paddedCrop_src e, ih]
  | overview s k _ ih => rw [src_mkOverview, ih]
  | dequant s q _ ih => rw [src_mkDequant, List.map_map, ← ih]; rfl

/-- C70: a channel that is asked for and does not exist is NaN everywhere, also after any number of warps (without
a border value), crops, paddings, overviews and dequantizations, optimized or not. -/
theorem C70_missing_code (H : Heur) (hS : Env.Shaped E) (hE : Env.KeepsNan E) {s : Node} (hb : Built s)
    {names : List Str} (hn : s.channels = some names) (hd : names.Nodup) {codes : List Str} {policy : Policy} {t : Node}
    (ht : takeNames s codes policy = .ok t) {n : Node} (ho : Later t n) (hbn : Built n)
    (ha : ∀ a ∈ warpAlgos n, a.border = none) (hm : Each E.Matches n)
    {k : Nat} {code : Str} (hk : codes[k]? = some code) (hmiss : code ∉ names) :
    (∀ i, fin E n = .ok i → NanAt E k i) ∧ ∀ fuel i, finalize H E fuel n = .ok i → NanAt E k i := by
  refine C70_stays_nan H hS hE hbn ha hm fun c hc => ?_
  have h1 := (C69_take hb hn hd ht hk).2 hmiss
  have h2 : ((src n).map Src.leaf)[k]? = ((src t).map Src.leaf)[k]? := by rw [later_leafs ho]
  rw [List.getElem?_map, List.getElem?_map, hc, h1] at h2
  simpa using h2

/-! #### cases -/

/-- Resampling by looking at the pixel that holds the centre; `none` is NaN. -/
def look (g : ℚ × ℚ → ℚ × ℚ) (d : Nat × Nat) (i : Img (Option Nat)) : Img (Option Nat) :=
  ⟨d.2, d.1, i.n, fun y x k =>
    let p := g ((x : ℚ) + 1 / 2, (y : ℚ) + 1 / 2)
    if 0 ≤ ⌊p.2⌋ ∧ ⌊p.2⌋ < i.h ∧ 0 ≤ ⌊p.1⌋ ∧ ⌊p.1⌋ < i.w then i.px ⌊p.2⌋.toNat ⌊p.1⌋.toNat k else none⟩

/-- An environment for given files. -/
def looking (img : Nat → Img (Option Nat)) : Env (Option Nat) where
  img := img
  deq := fun _ v => v
  nan := none
  border := fun a => a.border.map (fun b => ⌊b⌋.toNat)
  warp := fun tf d _ i => look tf.inv.app (d.1.toNat, d.2.toNat) i
  resize := fun d i => look (fun p => (p.1 * i.w / d.1, p.2 * i.h / d.2)) (d.1.toNat, d.2.toNat) i
  finite := Option.isSome
  unique := fun l => l.dedup.length
  overview := fun _ k i => look (fun p => (p.1 * 2 ^ k.toNat, p.2 * 2 ^ k.toNat))
    ((ovSize k i.w).toNat, (ovSize k i.h).toNat) i

theorem look_same {g : ℚ × ℚ → ℚ × ℚ} {d : Nat × Nat} {k : Nat} {i j : Img (Option Nat)} (h : SameAt k i j) :
    SameAt k (look g d i) (look g d j) := by
  refine ⟨rfl, rfl, h.n, fun hk y x _ _ => ?_⟩
  simp only [look, ← h.h, ← h.w]
  split
  · exact h.px hk _ _ (by omega) (by omega)
  · rfl

theorem looking_channelwise (img : Nat → Img (Option Nat)) : Env.Channelwise (looking img) where
  warp := fun _ _ _ _ _ _ h => look_same h
  resize := fun d k i j h => by
    simp only [looking, h.h, h.w]; exact look_same h
  overview := fun s o k i j h => by
    simp only [looking, h.h, h.w]; exact look_same h

theorem looking_shaped (img : Nat → Img (Option Nat)) : Env.Shaped (looking img) :=
  ⟨fun _ _ _ _ => rfl, fun _ _ => rfl, fun _ _ _ => rfl⟩

theorem look_nan {g : ℚ × ℚ → ℚ × ℚ} {d : Nat × Nat} {k : Nat} {img : Nat → Img (Option Nat)}
    {i : Img (Option Nat)} (h : NanAt (looking img) k i) : NanAt (looking img) k (look g d i) := by
  intro hk y x _ _
  simp only [look]
  split
  · exact h hk _ _ (by omega) (by omega)
  · rfl

theorem looking_nan (img : Nat → Img (Option Nat)) : Env.KeepsNan (looking img) where
  deq := fun _ => rfl
  border := fun a h => by simp [looking, h]
  warp := fun _ _ _ _ _ _ h => look_nan h
  resize := fun _ _ _ h => look_nan h
  overview := fun _ _ _ _ h => look_nan h

/-- Files of two by two pixels with two channels, zeros in the left column of the first channel and ones in the
right one; the second channel is `f`. -/
def twoBands (f : Nat → Nat → Option Nat) (_ : Nat) : Img (Option Nat) :=
  ⟨2, 2, 2, fun y x k => if k = 0 then some x else f y x⟩

/-- The file. -/
def bandLeaf : Leaf := ⟨0, (2, 2), 2, some [p! "r", p! "g"], none, false⟩

/-- It is turned by 90 degrees and the upper row of the result is kept. -/
def turnedRow (a : Algo) : Node := mkWarp (.leaf bandLeaf) ⟨0, -1, 2, 1, 0, 0⟩ (some (2, 1)) a

theorem turnedRow_built (a : Algo) : Built (turnedRow a) :=
  .warp _ _ _ _ (.leaf _ ⟨by rintro l ⟨⟩; rfl, by rintro ⟨⟩⟩ ⟨by decide, by decide⟩) (by norm_num [Affine.det])
    ⟨by show (0 : Int) ≤ 2; decide, by show (0 : Int) ≤ 1; decide⟩

/-- The first channel comes from the first channel of the file and the hypotheses of C69 and C70 are met. -/
example : src (turnedRow .default) = [⟨some (0, 0), []⟩, ⟨some (0, 1), []⟩] ∧ Smooth (turnedRow .default) ∧
    Each (looking (twoBands fun _ _ => none)).Matches (turnedRow .default) ∧
    SameSource (twoBands fun _ _ => none) (twoBands fun _ _ => some 5) (src (turnedRow .default))[0]? := by
  refine ⟨by decide +kernel, ⟨by decide, trivial⟩, fun _ => ⟨rfl, rfl, rfl⟩, ⟨fun _ => ⟨rfl, rfl, rfl⟩, ?_⟩⟩
  intro s id ch h1 h2 _ y x _ _
  rw [show (src (turnedRow .default))[0]? = some ⟨some (0, 0), []⟩ by decide +kernel] at h1
  cases h1
  cases h2
  rfl

/-- C69, what fails with nearest neighbours: the warp by the transform and the one by its inverse are compared, all
channels together, and the better looking one is kept.  Two files with the same first channel give different first
channels, because of NaNs in the second one. -/
theorem C69_nearest_violated :
    let a : Algo := { Algo.default with interp := .nearest }
    let whole := twoBands fun _ _ => some 5
    let half := twoBands fun _ x => if x = 0 then none else some 5
    SameSource whole half (src (turnedRow a))[0]? ∧
    (∃ i, finalize Heur.code (looking whole) 20 (turnedRow a) = .ok i ∧ i.px 0 0 0 = some 0) ∧
    ∃ i, finalize Heur.code (looking half) 20 (turnedRow a) = .ok i ∧ i.px 0 0 0 = some 1 := by
  refine ⟨⟨fun _ => ⟨rfl, rfl, rfl⟩, ?_⟩, ?_, ?_⟩
  · intro s id ch h1 h2 _ y x _ _
    rw [show (src (turnedRow _))[0]? = some ⟨some (0, 0), []⟩ by decide +kernel] at h1
    cases h1
    cases h2
    rfl
  · obtain ⟨i, h1, h2⟩ := holds_ok (f := fun i : Img (Option Nat) => decide (i.px 0 0 0 = some 0))
      (x := finalize Heur.code (looking (twoBands fun _ _ => some 5)) 20
        (turnedRow { Algo.default with interp := .nearest })) (by decide +kernel)
    exact ⟨i, h1, by simpa using h2⟩
  · obtain ⟨i, h1, h2⟩ := holds_ok (f := fun i : Img (Option Nat) => decide (i.px 0 0 0 = some 1))
      (x := finalize Heur.code (looking (twoBands fun _ x => if x = 0 then none else some 5)) 20
        (turnedRow { Algo.default with interp := .nearest })) (by decide +kernel)
    exact ⟨i, h1, by simpa using h2⟩

/-- A missing channel between two others, warped and cropped: the array is computed and its second channel is NaN. -/
example : ∃ t, takeNames (.leaf bandLeaf) [p! "g", p! "x", p! "r"] .returnNan = .ok t ∧
    ∃ n, mkCrop (mkWarp t (.scale 2) none .default) (some ((some 0, some 3), (some 1, some 4))) none = .ok n ∧
    (src n).map Src.leaf = [some (0, 1), none, some (0, 0)] ∧
    ∃ i, finalize Heur.code (looking (twoBands fun _ _ => some 5)) 40 n = .ok i ∧ (i.h, i.w, i.n) = (3, 3, 3) ∧
      i.px 1 1 1 = none ∧ i.px 1 1 0 = some 5 := by
  obtain ⟨t, h1, h2⟩ := holds_ok (x := takeNames (.leaf bandLeaf) [p! "g", p! "x", p! "r"] .returnNan)
    (f := fun t => holds (mkCrop (mkWarp t (.scale 2) none .default) (some ((some 0, some 3), (some 1, some 4))) none)
      (fun n => decide ((src n).map Src.leaf = [some (0, 1), none, some (0, 0)]) &&
        holds (finalize Heur.code (looking (twoBands fun _ _ => some 5)) 40 n)
          (fun i => decide ((i.h, i.w, i.n) = (3, 3, 3) ∧ i.px 1 1 1 = none ∧ i.px 1 1 0 = some 5)))) (by decide +kernel)
  obtain ⟨n, h3, h4⟩ := holds_ok h2
  rw [Bool.and_eq_true] at h4
  obtain ⟨i, h5, h6⟩ := holds_ok h4.2
  exact ⟨t, h1, n, h3, by simpa using h4.1, i, h5, by simpa using h6⟩

/-- C70, why a border value must not be given: the missing channel shows it. -/
theorem C70_border_violated :
    ∃ t, takeNames (.leaf bandLeaf) [p! "g", p! "x"] .returnNan = .ok t ∧ (src t).map Src.leaf = [some (0, 1), none] ∧
    ∃ i, fin (looking (twoBands fun _ _ => some 5))
      (mkWarp t (.trans 1 0) (some (2, 2)) ⟨.nearest, true, some 7, 0, 0⟩) = .ok i ∧ i.px 0 0 1 = some 7 ∧
      i.px 0 1 1 = none := by
  obtain ⟨t, h1, h2⟩ := holds_ok (x := takeNames (.leaf bandLeaf) [p! "g", p! "x"] .returnNan)
    (f := fun t => decide ((src t).map Src.leaf = [some (0, 1), none]) &&
      holds (fin (looking (twoBands fun _ _ => some 5))
        (mkWarp t (.trans 1 0) (some (2, 2)) ⟨.nearest, true, some 7, 0, 0⟩))
        (fun i => decide (i.px 0 0 1 = some 7 ∧ i.px 0 1 1 = none))) (by decide +kernel)
  rw [Bool.and_eq_true] at h2
  obtain ⟨i, h3, h4⟩ := holds_ok h2.2
  exact ⟨t, h1, by simpa using h2.1, i, h3, by simpa using h4⟩

end Verif.Props
