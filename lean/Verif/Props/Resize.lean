/-
C50 (resize, scale and lazy warps) and C51 (evaluate).
-/
import Verif.Props.Shape
import Verif.Props.Helpers
import Verif.Props.Opt

namespace Verif.Props

open Tree Helpers

/-! ### C50 -/

/-- C50: a resized image has the requested size and the channels of the image; every channel is the
channel of the image seen through one transform, which takes the four corners of the image to the four
corners of the new canvas. -/
theorem C50_resize (close : Affine → Bool) (n : Node) (d : Int × Int) (a : Algo)
    (hw : n.dsize.1 ≠ 0) (hh : n.dsize.2 ≠ 0) :
    let r := resize close n d a false
    r.dsize = d ∧ r.channels = n.channels ∧ r.nchan = n.nchan ∧
    ∃ S : Affine, den r = (den n).map (Chan.map S d) ∧
      S.app (0, 0) = (0, 0) ∧ S.app (n.dsize.1, 0) = ((d.1 : ℚ), 0) ∧
      S.app (0, n.dsize.2) = (0, (d.2 : ℚ)) ∧ S.app (n.dsize.1, n.dsize.2) = ((d.1 : ℚ), (d.2 : ℚ)) := by
  have hw' : (n.dsize.1 : ℚ) ≠ 0 := by exact_mod_cast hw
  have hh' : (n.dsize.2 : ℚ) ≠ 0 := by exact_mod_cast hh
  refine ⟨rfl, rfl, rfl, _, rfl, ?_, ?_, ?_, ?_⟩ <;>
    simp [Affine.app, hw', hh']

example : (resize (fun _ => false) (.leaf rgbLeaf) (10, 2) .default false).dsize = (10, 2) ∧
    rgbLeaf.dsize = (5, 4) := by decide +kernel

/-- C50: resizing twice maps every channel like resizing once to the last size, and resizing to the own
size maps every channel to itself. -/
theorem C50_resize_again (close : Affine → Bool) (n : Node) (e d : Int × Int) (a b : Algo)
    (hw : n.dsize.1 ≠ 0) (hh : n.dsize.2 ≠ 0) (he : e.1 ≠ 0) (he' : e.2 ≠ 0) :
    (den (resize close (resize close n e a false) d b false)).map Chan.tf =
      (den (resize close n d b false)).map Chan.tf ∧
    (den (resize close n n.dsize a false)).map Chan.tf = (den n).map Chan.tf := by
  have hw' : (n.dsize.1 : ℚ) ≠ 0 := by exact_mod_cast hw
  have hh' : (n.dsize.2 : ℚ) ≠ 0 := by exact_mod_cast hh
  have e1 : (e.1 : ℚ) ≠ 0 := by exact_mod_cast he
  have e2 : (e.2 : ℚ) ≠ 0 := by exact_mod_cast he'
  constructor
  · simp only [resize, Tree.warp, Bool.false_and, Bool.false_eq_true, if_false, mkWarp, den, List.map_map,
      Option.getD_some, Node.dsize]
    apply List.map_congr_left
    intro c _
    simp only [Function.comp_apply, Chan.map]
    rw [← Affine.mul_assoc']
    congr 1
    ext <;> simp [Affine.mul_def, Affine.mul] <;> field_simp
  · simp only [resize, Tree.warp, Bool.false_and, Bool.false_eq_true, if_false, mkWarp, den, List.map_map,
      Option.getD_some]
    apply List.map_congr_left
    intro c _
    simp only [Function.comp_apply, Chan.map]
    rw [div_self hw', div_self hh']
    exact Affine.id_mul _

/-- C50: scaling by positive factors multiplies coordinates by the factors, and the automatic canvas is
the scaled size rounded up. -/
theorem C50_scale (close : Affine → Bool) (n : Node) (sx sy : ℚ) (a : Algo) (hsx : 0 < sx) (hsy : 0 < sy)
    (hn : Nonneg n.dsize) :
    let r := scale close n sx sy none a false
    r.dsize = (⌈sx * n.dsize.1⌉, ⌈sy * n.dsize.2⌉) ∧ r.channels = n.channels ∧
    ∃ S : Affine, den r = (den n).map (Chan.map S r.dsize) ∧
      ∀ p, S.app p = (sx * p.1, sy * p.2) := by
  have h1 : (0 : ℚ) ≤ sx * n.dsize.1 := mul_nonneg hsx.le (by exact_mod_cast hn.1)
  have h2 : (0 : ℚ) ≤ sy * n.dsize.2 := mul_nonneg hsy.le (by exact_mod_cast hn.2)
  refine ⟨?_, rfl, _, rfl, ?_⟩
  · have e : (scale close n sx sy none a false).dsize =
        autoDsize (some ⟨sx, 0, 0, 0, sy, 0⟩) n.dsize := rfl
    rw [e]
    simp [autoDsize, Affine.app, max4, h1, h2]
  · intro p; simp [Affine.app]

example : (scale (fun _ => false) (.leaf rgbLeaf) (1 / 2) (1 / 3) none .default false).dsize = (3, 2) := by
  decide +kernel

/-- C50: a lazy warp returns the image itself only if no other size was asked for and the transform is
missing or passes for the identity; otherwise it is the warp. -/
theorem C50_lazy_iff (close : Affine → Bool) (n : Node) (tf : Option Affine) (d : Option (Int × Int))
    (a : Algo) :
    Tree.warp close n tf d a true =
      (open Classical in
       if (d = none ∨ d = some n.dsize) ∧ (∀ m, tf = some m → close m = true) then n
       else Tree.warp close n tf d a false) := by
  classical
  cases tf with
  | none =>
    cases d with
    | none => rw [if_pos ⟨.inl rfl, by simp⟩]; rfl
    | some d =>
      by_cases hd : n.dsize = d
      · rw [if_pos ⟨.inr (by rw [hd]), by simp⟩]
        simp [Tree.warp, hd]
      · rw [if_neg (by simpa using fun h => hd h.symm)]
        simp [Tree.warp, hd]
  | some m =>
    cases hm : close m with
    | false =>
      rw [if_neg (fun h => by simp [hm] at h)]
      cases d <;> simp [Tree.warp, hm]
    | true =>
      cases d with
      | none => rw [if_pos ⟨.inl rfl, by simpa using hm⟩]; simp [Tree.warp, hm]
      | some d =>
        by_cases hd : n.dsize = d
        · rw [if_pos ⟨.inr (by rw [hd]), by simpa using hm⟩]
          simp [Tree.warp, hd, hm]
        · rw [if_neg (fun h => hd (by simpa using h.1.symm : d = n.dsize).symm)]
          simp [Tree.warp, hd]

/-- C50: if only the identity passes for the identity, a lazy warp of an image built with the API shows
the same as the warp: same size, same codes, and every channel has the same source, transform and
dequantizations and shows data at the same points. -/
theorem C50_lazy_partial (close : Affine → Bool) (hc : ∀ m, close m = true → m = .id) (n : Node)
    (hb : Built n) (tf : Option Affine) (d : Option (Int × Int)) (a : Algo) :
    let r := Tree.warp close n tf d a true
    let s := Tree.warp close n tf d a false
    r.dsize = s.dsize ∧ r.channels = s.channels ∧ r.nchan = s.nchan ∧
    List.Forall₂ (fun c c' => c.id = c'.id ∧ c.ch = c'.ch ∧ c.tf = c'.tf ∧ c.qs = c'.qs ∧
      ∀ p, c.dom p ↔ c'.dom p) (den r) (den s) := by
  classical
  obtain ⟨hwf, hfit⟩ := hb.ok
  have hn := hfit.nonneg hwf
  simp only [C50_lazy_iff]
  have refl : ∀ l : List Chan, List.Forall₂ (fun c c' => c.id = c'.id ∧ c.ch = c'.ch ∧ c.tf = c'.tf ∧
      c.qs = c'.qs ∧ ∀ p, c.dom p ↔ c'.dom p) l l := by
    intro l
    induction l with
    | nil => exact .nil
    | cons c l ih => exact .cons ⟨rfl, rfl, rfl, rfl, fun _ => Iff.rfl⟩ ih
  split
  · rename_i h
    obtain ⟨hd, ht⟩ := h
    have htf : tf.getD .id = .id := by
      cases tf with
      | none => rfl
      | some m => exact hc m (ht m rfl)
    have hs : Tree.warp close n tf d a false = .warp n .id n.dsize a := by
      unfold Tree.warp
      simp only [Bool.false_and, Bool.false_eq_true, if_false, mkWarp, htf]
      rcases hd with rfl | rfl
      · have := (C20_identity n.dsize.1 n.dsize.2 hn.1 hn.2).2
        congr 1
      · rfl
    rw [hs]
    refine ⟨rfl, rfl, rfl, ?_⟩
    simp only [den]
    have key : ∀ l : List Chan, (∀ c ∈ l, ∀ p, c.dom p → In n.dsize p) →
        List.Forall₂ (fun c c' => c.id = c'.id ∧ c.ch = c'.ch ∧ c.tf = c'.tf ∧
          c.qs = c'.qs ∧ ∀ p, c.dom p ↔ c'.dom p) l (l.map (Chan.map .id n.dsize)) := by
      intro l hl
      induction l with
      | nil => exact .nil
      | cons c l ih =>
        refine .cons ⟨rfl, rfl, (Affine.id_mul _).symm, rfl, fun p => ?_⟩
          (ih (fun c hc => hl c (List.mem_cons_of_mem _ hc)))
        simp only [Chan.map, Affine.inv_id, Affine.app_id]
        exact ⟨fun h => ⟨hl c (List.mem_cons_self ..) p h, h⟩, And.right⟩
    exact key _ (den_in n hwf)
  · exact ⟨rfl, rfl, rfl, refl _⟩

example : Tree.warp Heur.exact.closeId (.leaf rgbLeaf) (some .id) (some (5, 4)) .default true =
      .leaf rgbLeaf ∧
    (Tree.warp Heur.exact.closeId (.leaf rgbLeaf) (some .id) (some (5, 5)) .default true).dsize =
      (5, 5) := by
  constructor
  · have h : Heur.exact.closeId .id = true := by decide +kernel
    have h' : (Tree.Node.leaf rgbLeaf : Node).dsize = (5, 4) := rfl
    simp [Tree.warp, h, h']
  · decide +kernel

/-- C50, what fails: with the tolerance of the code, moving the image by a billionth of a pixel makes the
automatic canvas one pixel wider, but not if the warp is lazy. -/
theorem C50_lazy_size_violated :
    let m : Affine := .trans (1 / 1000000000) 0
    (Tree.warp Heur.code.closeId (.leaf rgbLeaf) (some m) none .default false).dsize = (6, 4) ∧
    (Tree.warp Heur.code.closeId (.leaf rgbLeaf) (some m) none .default true).dsize = (5, 4) := by
  constructor <;> decide +kernel

/-! ### C51 -/

/-- Operations that are applied to an image. -/
inductive Act where
  | warp (tf : Affine) (d : Option (Int × Int)) (a : Algo)
  | crop (sl : Option Space) (c : Option (List Nat))
  | dequant (q : Quantization)

/-- One operation. -/
def Act.run (n : Node) : Act → Py Node
  | .warp tf d a => .ok (mkWarp n tf d a)
  | .crop sl c => mkCrop n sl c
  | .dequant q => .ok (mkDequant n q)

/-- Several operations, in order. -/
def runActs (n : Node) : List Act → Py Node
  | [] => .ok n
  | s :: ss =>
    match s.run n with
    | .error e => .error e
    | .ok m => runActs m ss

/-- Resampling looks only at the pixels of an array. -/
structure Env.Reads {V : Type} (E : Env V) : Prop where
  warp : ∀ tf d a {i j}, i.Same j → (E.warp tf d a i).Same (E.warp tf d a j)
  resize : ∀ d {i j}, i.Same j → (E.resize d i).Same (E.resize d j)

section
variable {V : Type}

theorem same_values {i j : Img V} (h : i.Same j) : i.values = j.values := by
  unfold Img.values
  rw [← h.h, ← h.w, ← h.n]
  have e : ∀ {β : Type} (l : List Nat) (f g : Nat → List β), (∀ y ∈ l, f y = g y) →
      l.flatMap f = l.flatMap g := by
    intro β l f g H
    induction l with
    | nil => rfl
    | cons y l ih =>
      rw [List.flatMap_cons, List.flatMap_cons, H y (List.mem_cons_self ..),
        ih (fun y hy => H y (List.mem_cons_of_mem _ hy))]
  apply e
  intro y hy
  apply e
  intro x hx
  apply List.map_congr_left
  intro k hk
  exact h.px y x k (List.mem_range.1 hy) (List.mem_range.1 hx) (List.mem_range.1 hk)

theorem same_nearestGuess {E : Env V} (hE : Env.Reads E) (tf : Affine) (d : Int × Int) (a : Algo)
    {i j : Img V} (h : i.Same j) : (nearestGuess E tf d a i).Same (nearestGuess E tf d a j) := by
  have e1 := hE.warp tf d a h
  have e2 := hE.warp tf.inv d a h
  have hs : ∀ src {p q : Img V}, p.Same q → score E src p = score E src q := by
    intro src p q hpq
    unfold score
    rw [same_values hpq]
  unfold Tree.nearestGuess
  simp only [same_values h, hs _ e1, hs _ e2]
  by_cases c1 : max (score E (if j.values.filter E.finite = [] then 0 else
      E.unique (j.values.filter E.finite)) (E.warp tf d a j)).1
      (score E (if j.values.filter E.finite = [] then 0 else
      E.unique (j.values.filter E.finite)) (E.warp tf.inv d a j)).1 < 5 / 100
  · rw [if_pos c1, if_pos c1]
    exact hE.resize d h
  · rw [if_neg c1, if_neg c1]
    by_cases c2 : scoreGe (score E (if j.values.filter E.finite = [] then 0 else
      E.unique (j.values.filter E.finite)) (E.warp tf d a j))
      (score E (if j.values.filter E.finite = [] then 0 else
      E.unique (j.values.filter E.finite)) (E.warp tf.inv d a j)) = true
    · rw [if_pos c2, if_pos c2]
      exact e1
    · rw [if_neg c2, if_neg c2]
      exact e2

theorem same_nearestWarp {i j : Img V} (h : i.Same j) (tf : Affine) (d : Int × Int) (v : V) :
    Agree (nearestWarp i tf d v) (nearestWarp j tf d v) := by
  unfold Tree.nearestWarp
  simp only [← h.h, ← h.w, ← h.n]
  have out : (⟨d.2.toNat, d.1.toNat, i.n, fun y x k =>
        let xi := nearestIdx tf.a tf.tx x
        let yi := nearestIdx tf.d tf.ty y
        if 0 ≤ yi ∧ yi < i.h ∧ 0 ≤ xi ∧ xi < i.w then i.px yi.toNat xi.toNat k else v⟩ : Img V).Same
      ⟨d.2.toNat, d.1.toNat, i.n, fun y x k =>
        let xi := nearestIdx tf.a tf.tx x
        let yi := nearestIdx tf.d tf.ty y
        if 0 ≤ yi ∧ yi < i.h ∧ 0 ≤ xi ∧ xi < i.w then j.px yi.toNat xi.toNat k else v⟩ := by
    refine ⟨rfl, rfl, rfl, fun y x k _ _ hk => ?_⟩
    simp only []
    split
    · rename_i hc
      exact h.px _ _ _ (by omega) (by omega) hk
    · rfl
  split
  · exact rfl
  · split
    · split
      · exact out
      · exact rfl
    · exact out

theorem same_finWarp {E : Env V} (hE : Env.Reads E) {i j : Img V} (h : i.Same j) (tf : Affine)
    (d : Int × Int) (a : Algo) : Agree (finWarp E tf d a i) (finWarp E tf d a j) := by
  unfold Tree.finWarp
  split
  · split
    · split
      · exact same_nearestWarp h ..
      · exact hE.resize d h
    · exact same_nearestGuess hE _ _ _ h
  · exact hE.warp tf d a h

theorem npSlice_lt (D : Nat) (a b : Option Int) {k : Nat} (hk : k < (npSlice D a b).length) :
    (npSlice D a b).getD k 0 < D := by
  have : (npSlice D a b).getD k 0 ∈ npSlice D a b := by
    rw [List.getD_eq_getElem _ _ hk]; exact List.getElem_mem hk
  exact List.mem_range.1 (List.mem_of_mem_filter this)

theorem same_crop {i j : Img V} (h : i.Same j) (ysl xsl : Option Int × Option Int)
    (c : Option (List Nat)) : Agree ((i.slice ysl xsl).select c) ((j.slice ysl xsl).select c) := by
  have hs : (i.slice ysl xsl).Same (j.slice ysl xsl) := by
    unfold Img.slice
    rw [← h.h, ← h.w, ← h.n]
    exact ⟨rfl, rfl, rfl, fun y x k hy hx hk => h.px _ _ _ (npSlice_lt _ _ _ hy) (npSlice_lt _ _ _ hx) hk⟩
  cases c with
  | none => exact hs
  | some c =>
    unfold Img.select
    simp only [← hs.n]
    split
    · rename_i hc
      refine ⟨hs.h, hs.w, rfl, fun y x k hy hx hk => hs.px _ _ _ hy hx ?_⟩
      have hm : c.getD k 0 ∈ c := by
        rw [List.getD_eq_getElem _ _ hk]; exact List.getElem_mem hk
      exact of_decide_eq_true (List.all_eq_true.1 hc _ hm)
    · exact rfl

/-- Two images that announce the same and finalize to the same array. -/
structure Alike (E E' : Env V) (m m' : Node) : Prop where
  dsize : m'.dsize = m.dsize
  channels : m'.channels = m.channels
  nchan : m'.nchan = m.nchan
  fin : Agree (fin E' m') (fin E m)

theorem Alike.step {E E' : Env V} (hR : Env.Reads E) (hE : E' = { E with img := E'.img }) {m m' : Node}
    (h : Alike E E' m m') (s : Act) :
    match s.run m with
    | .error e => s.run m' = .error e
    | .ok r => ∃ r', s.run m' = .ok r' ∧ Alike E E' r r' := by
  obtain ⟨h1, h2, h3, h4⟩ := h
  have hw : ∀ tf d a i, finWarp E' tf d a i = finWarp E tf d a i := by
    intro tf d a i; rw [hE]; rfl
  have hd : ∀ q v, E'.deq q v = E.deq q v := by intro q v; rw [hE]
  cases s with
  | warp tf d a =>
    have e : ∀ D, Alike E E' (.warp m tf D a) (.warp m' tf D a) := by
      intro D
      refine ⟨rfl, h2, h3, ?_⟩
      simp only [Tree.fin, hw]
      cases e : Tree.fin E m with
      | error e' =>
        cases e' : Tree.fin E' m' with
        | error e'' => rw [e, e'] at h4; exact h4
        | ok i => rw [e, e'] at h4; exact h4.elim
      | ok i =>
        cases e' : Tree.fin E' m' with
        | error e'' => rw [e, e'] at h4; exact h4.elim
        | ok i => rw [e, e'] at h4; exact same_finWarp hR h4 ..
    refine ⟨_, rfl, ?_⟩
    cases d with
    | none => simp only [mkWarp, h1]; exact e _
    | some d => exact e d
  | crop sl c =>
    have hch : chanCheck m' c = chanCheck m c := by simp only [chanCheck, h2]
    simp only [Act.run, mkCrop, hch, h1]
    cases chanCheck m c with
    | error e => rfl
    | ok u =>
      have hfin : ∀ y0 y1 x0 x1, Alike E E' (.crop m y0 y1 x0 x1 c) (.crop m' y0 y1 x0 x1 c) := by
        intro y0 y1 x0 x1
        refine ⟨rfl, ?_, ?_, ?_⟩
        · simp only [Node.channels, h2]
        · simp only [Node.nchan, h3]
        · simp only [Tree.fin]
          cases e : Tree.fin E m with
          | error e' =>
            cases e' : Tree.fin E' m' with
            | error e'' => rw [e, e'] at h4; exact h4
            | ok i => rw [e, e'] at h4; exact h4.elim
          | ok i =>
            cases e' : Tree.fin E' m' with
            | error e'' => rw [e, e'] at h4; exact h4.elim
            | ok i => rw [e, e'] at h4; exact same_crop h4 ..
      cases sl with
      | none => exact ⟨_, rfl, hfin ..⟩
      | some sl => exact ⟨_, rfl, hfin ..⟩
  | dequant q =>
    refine ⟨_, rfl, ?_, h2, h3, ?_⟩
    · exact h1
    · simp only [mkDequant, Tree.fin, hd]
      cases e : Tree.fin E m with
      | error e' =>
        cases e' : Tree.fin E' m' with
        | error e'' => rw [e, e'] at h4; exact h4
        | ok i => rw [e, e'] at h4; exact h4.elim
      | ok i =>
        cases e' : Tree.fin E' m' with
        | error e'' => rw [e, e'] at h4; exact h4.elim
        | ok i =>
          rw [e, e'] at h4
          exact ⟨h4.h, h4.w, h4.n, fun y x k hy hx hk => congrArg _ (h4.px y x k hy hx hk)⟩

theorem Alike.acts {E E' : Env V} (hR : Env.Reads E) (hE : E' = { E with img := E'.img }) :
    ∀ (ss : List Act) {m m' : Node}, Alike E E' m m' →
    match runActs m ss with
    | .error e => runActs m' ss = .error e
    | .ok r => ∃ r', runActs m' ss = .ok r' ∧ Alike E E' r r'
  | [], m, m', h => ⟨m', rfl, h⟩
  | s :: ss, m, m', h => by
    have hs := h.step hR hE s
    simp only [runActs]
    cases e : s.run m with
    | error e' => simp only [e] at hs; simp only [hs]
    | ok r =>
      simp only [e] at hs
      obtain ⟨r', h1, h2⟩ := hs
      simp only [h1]
      exact Alike.acts hR hE ss h2

/-- C51: an evaluated image announces the size and the channels of the image and finalizes to the array
the image finalizes to. -/
theorem C51_evaluate {V : Type} (H : Heur) (E : Env V) (fuel : Nat) (n : Node) (fresh : Nat) (i : Img V)
    (h : finalize H E fuel n = .ok i) :
    ∃ m E', evaluate H E fuel n fresh = .ok (m, E') ∧ m.dsize = n.dsize ∧ m.channels = n.channels ∧
      m.nchan = i.n ∧ fin E' m = .ok i ∧ ∀ k, k ≠ fresh → E'.img k = E.img k := by
  refine ⟨.leaf ⟨fresh, n.dsize, i.n, n.channels, none, false⟩,
    { E with img := fun k => if k = fresh then i else E.img k }, by rw [evaluate, h], rfl, rfl, rfl, ?_, ?_⟩
  · simp [fin]
  · intro k hk; simp [hk]

/-- Operations on `m` in `E'` raise the errors of the operations on `n` in `E`, or announce the same and
finalize to the same array. -/
def Follows (E : Env V) (n : Node) (E' : Env V) (m : Node) (ss : List Act) : Prop :=
  match runActs n ss with
  | .error e => runActs m ss = .error e
  | .ok r => ∃ r', runActs m ss = .ok r' ∧ r'.dsize = r.dsize ∧ r'.channels = r.channels ∧
      r'.nchan = r.nchan ∧ Agree (fin E' r') (fin E r)

/-- C51: operations on an evaluated image raise the same errors, announce the same and finalize to the
same arrays as operations on the image, if optimizing the image does not change its array. -/
theorem C51_operations (H : Heur) (E : Env V) (hR : Env.Reads E) (fuel : Nat) (n : Node)
    (fresh : Nat) (i j : Img V) (h : finalize H E fuel n = .ok j) (hf : fin E n = .ok i) (hij : i.Same j)
    (hc : j.n = n.nchan) (ss : List Act) :
    ∃ m E', evaluate H E fuel n fresh = .ok (m, E') ∧
      Follows E n E' m ss := by
  refine ⟨.leaf ⟨fresh, n.dsize, j.n, n.channels, none, false⟩,
    { E with img := fun k => if k = fresh then j else E.img k }, by rw [evaluate, h], ?_⟩
  have ha : Alike E { E with img := fun k => if k = fresh then j else E.img k } n
      (.leaf ⟨fresh, n.dsize, j.n, n.channels, none, false⟩) := by
    refine ⟨rfl, rfl, hc, ?_⟩
    simp only [fin, hf, if_true]
    exact ⟨hij.h.symm, hij.w.symm, hij.n.symm, fun y x k hy hx hk =>
      (hij.px y x k (hij.h ▸ hy) (hij.w ▸ hx) (hij.n ▸ hk)).symm⟩
  have := Alike.acts hR rfl ss ha
  unfold Follows
  cases e : runActs n ss with
  | error e' => simpa only [e] using this
  | ok r =>
    simp only [e] at this
    obtain ⟨r', h1, h2⟩ := this
    exact ⟨r', h1, h2.dsize, h2.channels, h2.nchan, h2.fin⟩

/-- C51 for crops, channel selections, dequantizations and concats of files in any order: evaluating
in the middle of a chain of operations changes nothing. -/
theorem C51_middle_partial (H : Heur) (E : Env V) (hE : Env.Shaped E) (hR : Env.Reads E) {n : Node}
    (hb : Built n) (hn : Flat n) (hm : Each E.Matches n) (hq : ∀ q, E.deq q E.nan = E.nan) (fuel : Nat)
    {o : Node} (ho : opt H fuel n = .ok o) (fresh : Nat) (ss : List Act) :
    ∃ m E', evaluate H E fuel n fresh = .ok (m, E') ∧
      Follows E n E' m ss := by
  obtain ⟨i, j, h1, h2, h3⟩ := C36_arrays_flat_partial H E hb hn hm hq fuel ho
  obtain ⟨hw, hf⟩ := hb.ok
  have := fin_shape hE n hw hf hm i h1
  exact C51_operations H E hR fuel n fresh i j h2 h1 h3 (by rw [← h3.n, this.n]) ss

end

/-- Resampling of `gridEnv` that looks at pixels only. -/
def cautious : Env (Nat × Nat × Nat) := { shapeEnv with resize := fun d i => i.shift 0 0 d (9, 9, 9) }

theorem same_shift {V : Type} {i j : Img V} (h : i.Same j) (tx ty : Int) (d : Int × Int) (v : V) :
    (i.shift tx ty d v).Same (j.shift tx ty d v) := by
  refine ⟨rfl, rfl, h.n, fun y x k _ _ hk => ?_⟩
  simp only [Img.shift, ← h.h, ← h.w]
  split
  · exact h.px _ _ _ (by omega) (by omega) hk
  · rfl

theorem cautious_reads : Env.Reads cautious :=
  ⟨fun _ _ _ _ _ h => same_shift h .., fun _ _ _ h => same_shift h ..⟩

theorem cautious_shaped : Env.Shaped cautious := ⟨fun _ _ _ _ => rfl, fun _ _ => rfl, fun _ _ _ => rfl⟩

/-- A crop and a selection of channels, evaluated, then moved by one and a half pixels and cropped. -/
example : ∃ m E', evaluate Heur.code cautious 40 (.crop (.leaf rgbLeaf) 1 3 1 5 (some [2, 0])) 7 =
      .ok (m, E') ∧
    Follows cautious (.crop (.leaf rgbLeaf) 1 3 1 5 (some [2, 0])) E' m
      [.warp (.trans (3 / 2) 0) none .default, .crop (some ((none, some 1), (none, none))) (some [1])] := by
  have hl : Built (.leaf rgbLeaf) := .leaf rgbLeaf
    ⟨by intro l h; simp only [rgbLeaf, Option.some.injEq] at h; subst h; rfl, by intro h; cases h⟩
    ⟨by decide, by decide⟩
  have hb : Built (.crop (.leaf rgbLeaf) 1 3 1 5 (some [2, 0])) :=
    .crop _ _ (some ((some 1, some 3), (some 1, some 5))) (some [2, 0]) hl
      (by intro i hi; simp only [List.mem_cons, List.not_mem_nil, or_false] at hi
          rcases hi with rfl | rfl <;> decide) rfl
  obtain ⟨o, ho, _⟩ := holds_ok (x := opt Heur.code 40 (.crop (.leaf rgbLeaf) 1 3 1 5 (some [2, 0]) : Node))
    (f := fun _ => true) (by decide +kernel)
  exact C51_middle_partial Heur.code cautious cautious_shaped cautious_reads hb trivial
    (fun _ => ⟨rfl, rfl, rfl⟩) (fun _ => rfl) 40 ho 7 _

/-- A grid that can be resampled like `gridEnv`, with 10 by 10 pixels. -/
def bigGrid : Env (Nat × Nat × Nat) :=
  { gridEnv with img := fun _ => ⟨10, 10, 3, fun y x k => (y, x, k)⟩ }

/-- C51, what fails: with overviews the array may have another shape than announced (C45), and the
evaluated image announces what the array is not. -/
theorem C51_shape_violated :
    ∃ i m E', finalize Heur.code bigGrid 40 halfCrop = .ok i ∧ (i.h, i.w) = (2, 2) ∧
      evaluate Heur.code bigGrid 40 halfCrop 5 = .ok (m, E') ∧ m.dsize = (1, 1) ∧ fin E' m = .ok i := by
  have e : halfCrop.dsize = (1, 1) := by decide +kernel
  have h : (match finalize Heur.code bigGrid 40 halfCrop with
      | .ok i => some (i.h, i.w) | .error _ => none) = some (2, 2) := by decide +kernel
  cases e' : finalize Heur.code bigGrid 40 halfCrop with
  | error _ => rw [e'] at h; cases h
  | ok i =>
    rw [e'] at h
    obtain ⟨m, E', h1, h2, _, _, h5, _⟩ := C51_evaluate Heur.code bigGrid 40 halfCrop 5 i e'
    exact ⟨i, m, E', rfl, by simpa using h, h1, h2.trans e, h5⟩

end Verif.Props
