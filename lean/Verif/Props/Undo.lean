/-
C41: `undo_warp` and `undo_warps`.
-/
import Verif.Undo
import Verif.Props.Opt
import Verif.Props.Transform

namespace Verif.Props

open Tree Helpers Node

/-! #### specification: components of a transform -/

/-- `c` are the components of `m`: first scale (`x` positive), then shear along `x`, then rotate, then
translate. -/
structure Parts (m : Affine) (c : Comps) : Prop where
  offset : m.app (0, 0) = c.offset
  /-- the unit vectors go where the scale, the shear and the rotation send them -/
  ex : m.app (1, 0) = (c.offset.1 + c.theta.1 * c.scale.1, c.offset.2 + c.theta.2 * c.scale.1)
  ey : m.app (0, 1) =
    (c.offset.1 + c.theta.1 * (c.shearx * c.scale.2) - c.theta.2 * c.scale.2,
     c.offset.2 + c.theta.2 * (c.shearx * c.scale.2) + c.theta.1 * c.scale.2)
  unit : c.theta.1 ^ 2 + c.theta.2 ^ 2 = 1
  pos : 0 < c.scale.1

/-- The component `k` does nothing. -/
def Trivial (c : Comps) : Key → Prop
  | .offset => c.offset = (0, 0)
  | .scale => c.scale = (1, 1)
  | .shearx => c.shearx = 0
  | .theta => c.theta = (1, 0)

theorem parts_iff (m : Affine) (c : Comps) :
    Parts m c ↔ c.compose = m ∧ c.theta.1 ^ 2 + c.theta.2 ^ 2 = 1 ∧ 0 < c.scale.1 := by
  constructor
  · intro ⟨h1, h2, h3, h4, h5⟩
    refine ⟨?_, h4, h5⟩
    simp only [Affine.app, Prod.ext_iff] at h1 h2 h3
    obtain ⟨h1, h1'⟩ := h1
    obtain ⟨h2, h2'⟩ := h2
    obtain ⟨h3, h3'⟩ := h3
    ext <;> simp only [Comps.compose] <;> linarith
  · rintro ⟨rfl, h4, h5⟩
    refine ⟨?_, ?_, ?_, h4, h5⟩ <;> simp only [Affine.app, Comps.compose, Prod.ext_iff] <;>
      constructor <;> ring

theorem Parts.compose {m : Affine} {c : Comps} (h : Parts m c) : c.compose = m := ((parts_iff m c).1 h).1

theorem compose_det (c : Comps) (h : c.theta.1 ^ 2 + c.theta.2 ^ 2 = 1) :
    c.compose.det = c.scale.1 * c.scale.2 := by
  simp only [Affine.det, Comps.compose]
  linear_combination c.scale.1 * c.scale.2 * h

theorem Parts.sy {m : Affine} {c : Comps} (h : Parts m c) (hm : m.det ≠ 0) : c.scale.2 ≠ 0 := by
  intro h0
  have := compose_det c h.unit
  rw [h.compose, h0, mul_zero] at this
  exact hm this

/-- An invertible transform has at most one list of components. -/
theorem Parts.unique {m : Affine} {c c' : Comps} (hm : m.det ≠ 0) (h : Parts m c) (h' : Parts m c') :
    c = c' := by
  have e : c.compose = c'.compose := h.compose.trans h'.compose.symm
  have hy := h.sy hm
  have hy' := h'.sy hm
  obtain ⟨⟨ox, oy⟩, ⟨sx, sy⟩, k, ⟨co, si⟩⟩ := c
  obtain ⟨⟨ox', oy'⟩, ⟨sx', sy'⟩, k', ⟨co', si'⟩⟩ := c'
  have hu := h.unit
  have hu' := h'.unit
  have hp := h.pos
  have hp' := h'.pos
  simp only [Comps.compose, Affine.mk.injEq] at e hu hu' hp hp' hy hy'
  obtain ⟨e1, e2, e3, e4, e5, e6⟩ := e
  have hs : sx = sx' := by
    have : sx ^ 2 = sx' ^ 2 := by
      calc sx ^ 2 = (sx * co) ^ 2 + (sx * si) ^ 2 := by linear_combination (-sx ^ 2) * hu
        _ = (sx' * co') ^ 2 + (sx' * si') ^ 2 := by rw [e1, e4]
        _ = sx' ^ 2 := by linear_combination (sx' ^ 2) * hu'
    exact (sq_eq_sq₀ hp.le hp'.le).1 this
  subst hs
  have hc : co = co' := mul_left_cancel₀ hp.ne' e1
  have hsi : si = si' := mul_left_cancel₀ hp.ne' e4
  subst hc hsi
  have hsy : sy = sy' := by
    have : sy * (co ^ 2 + si ^ 2) = sy' * (co ^ 2 + si ^ 2) := by linear_combination co * e5 - si * e2
    rwa [hu, mul_one, mul_one] at this
  subst hsy
  have hk : k = k' := by
    have : sy * k * (co ^ 2 + si ^ 2) = sy * k' * (co ^ 2 + si ^ 2) := by
      linear_combination co * e2 + si * e5
    rw [hu, mul_one, mul_one] at this
    exact mul_left_cancel₀ hy this
  subst hk e3 e6
  rfl

/-! #### chains -/

/-- No concat. -/
def Chain : Node → Prop
  | .leaf _ => True
  | .concat _ _ => False
  | .warp s _ _ _ => Chain s
  | .crop s _ _ _ _ _ => Chain s
  | .overview s _ _ => Chain s
  | .dequant s _ _ => Chain s

theorem stable_chain : Stable Chain where
  sub := by
    intro n x hn h
    cases n with
    | leaf l => simp [subOf] at h
    | concat _ _ => simp [subOf] at h
    | warp s _ _ _ => cases h; exact hn
    | crop s _ _ _ _ _ => cases h; exact hn
    | overview s _ _ => cases h; exact hn
    | dequant s _ _ => cases h; exact hn
  parts := fun h => h.elim
  concat := fun _ h => h.elim
  nan := fun _ _ => trivial
  nanLike := fun _ _ _ _ => trivial
  crop := fun _ _ _ _ _ h => h
  deq := fun _ _ h => h
  warp := fun _ _ _ h => h
  common := fun h => h
  ovOfWarp := fun _ _ h _ _ => h
  ov := fun _ _ _ h => h
  warpOfOv := fun _ _ _ h => h

theorem chain_of_leafTf : ∀ (n : Node) {t : Affine}, leafTf n = .ok t → Chain n
  | .leaf _, _, _ => trivial
  | .concat _ _, _, h => by simp [leafTf] at h
  | .warp s _ _ _, _, h => by
    simp only [leafTf] at h; split at h
    · cases h
    · rename_i t ht; exact chain_of_leafTf s ht
  | .crop s _ _ _ _ _, _, h => by
    simp only [leafTf] at h; split at h
    · cases h
    · rename_i t ht; exact chain_of_leafTf s ht
  | .overview s _ _, _, h => by
    simp only [leafTf] at h; split at h
    · cases h
    · rename_i t ht; exact chain_of_leafTf s ht
  | .dequant s _ _, _, h => by
    simp only [leafTf] at h; split at h
    · cases h
    · rename_i t ht; exact chain_of_leafTf s ht

/-- Every channel of a chain has the transform of the chain. -/
theorem chain_tf : ∀ (n : Node), Chain n → WF n → ∃ t, leafTf n = .ok t ∧ ∀ c ∈ den n, c.tf = t
  | .leaf l, _, _ => ⟨.id, rfl, by
      intro c hc
      simp only [den, List.mem_map] at hc
      obtain ⟨i, _, rfl⟩ := hc; rfl⟩
  | .concat _ _, h, _ => h.elim
  | .warp s tf d a, h, hw => by
    obtain ⟨t, h1, h2⟩ := chain_tf s h hw.1
    refine ⟨tf * t, by simp only [leafTf, h1, tfSub], ?_⟩
    intro c hc
    simp only [den, List.mem_map] at hc
    obtain ⟨c', hc', rfl⟩ := hc
    simp only [Chan.map, h2 c' hc']
  | .crop s y0 y1 x0 x1 cs, h, hw => by
    obtain ⟨t, h1, h2⟩ := chain_tf s h hw.1
    refine ⟨.trans (-x0) (-y0) * t, by simp only [leafTf, h1, tfSub], ?_⟩
    intro c hc
    simp only [den, List.mem_map] at hc
    obtain ⟨c', hc', rfl⟩ := hc
    have : c' ∈ den s := by
      cases cs with
      | none => exact hc'
      | some cs =>
        simp only [pick, List.mem_map] at hc'
        obtain ⟨i, hi, rfl⟩ := hc'
        have := hw.2.2.2 i hi
        rw [← den_length] at this
        rw [List.getD_eq_getElem _ _ this]
        exact List.getElem_mem this
    simp only [Chan.map, h2 c' this]
  | .overview s k d, h, hw => by
    obtain ⟨t, h1, h2⟩ := chain_tf s h hw
    refine ⟨ovScale k * t, by simp only [leafTf, h1, tfSub, ovScale], ?_⟩
    intro c hc
    simp only [den, List.mem_map] at hc
    obtain ⟨c', hc', rfl⟩ := hc
    simp only [Chan.map, h2 c' hc']
  | .dequant s q d, h, hw => by
    obtain ⟨t, h1, h2⟩ := chain_tf s h hw
    refine ⟨t, by simp only [leafTf, h1, tfSub, Affine.id_mul], ?_⟩
    intro c hc
    simp only [den, List.mem_map] at hc
    obtain ⟨c', hc', rfl⟩ := hc
    simp only [Chan.map, Chan.deq, h2 c' hc', Affine.id_mul]

theorem leafTf_det : ∀ (n : Node) {t : Affine}, WF n → leafTf n = .ok t → t.det ≠ 0 := by
  intro n t hw h
  rcases leafTf_ok n with ⟨i, u, h1, h2⟩ | h1
  · rw [h] at h1
    cases h1
    exact pathTfs_det n hw (i, t) (by rw [h2]; simp)
  · rw [h] at h1; cases h1

/-! #### the effect of `undo_warp` -/

theorem undo_core (H : Heur) {n : Node} (hH : Sharp H n) (hb : Built n) {A u : Affine}
    (hA : leafTf n = .ok A) (hu : u.det ≠ 0) {fuel : Nat} {m : Node}
    (h : opt H fuel (warp H.closeId n (some u) none .default false) = .ok m)
    {i : Nat} {c : Chan} (hc : (den n)[i]? = some c) {p : ℚ × ℚ} (hp : c.dom p)
    (h0 : 0 < (u.app p).1 ∧ 0 < (u.app p).2) :
    leafTf m = .ok (u * A) ∧
    ∃ c', (den m)[i]? = some c' ∧ c'.id = c.id ∧ c'.ch = c.ch ∧ c'.qs = c.qs ∧ c'.tf = u * A ∧
      ∀ q, c.dom q → 0 < (u.app q).1 → 0 < (u.app q).2 → c'.dom (u.app q) := by
  have hw := hb.ok.1
  have hch := chain_of_leafTf n hA
  have e : warp H.closeId n (some u) none .default false = .warp n u (autoDsize (some u) n.dsize) .default := rfl
  rw [e] at h
  have hwW : WF (.warp n u (autoDsize (some u) n.dsize) .default) := ⟨hw, hu⟩
  have g := opt_good (deep := false) (keepRules H (nameRules H) stable_chain) (by simp) fuel _ m
    ⟨hwW, hch⟩ h
  have gs := ((hH.warp u _ (a := .default) rfl).opt hwW h).1
  obtain ⟨t, ht1, ht2⟩ := chain_tf m g.inv.2 g.inv.1
  obtain ⟨t0, hn1, hn2⟩ := chain_tf n hch hw
  rw [hA] at hn1
  cases hn1
  have hc1 : (den (.warp n u (autoDsize (some u) n.dsize) .default))[i]? =
      some (c.map u (autoDsize (some u) n.dsize)) := by
    simp only [den, List.getElem?_map, hc, Option.map_some]
  obtain ⟨hi, e1⟩ := List.getElem?_eq_some_iff.1 hc1
  have hlen := gs.den.length_eq
  have hi' : i < (den m).length := by omega
  have hle := List.Forall₂.get gs.den hi hi'
  simp only [List.get_eq_getElem] at hle
  rw [e1] at hle
  have hdom : ∀ q, c.dom q → 0 < (u.app q).1 → 0 < (u.app q).2 →
      (c.map u (autoDsize (some u) n.dsize)).dom (u.app q) := by
    intro q hq h1 h2
    have hin := den_in n hw c (List.mem_of_getElem? hc) q hq
    obtain ⟨k1, k2⟩ := app_lt_auto u hu n.dsize q hin
    exact ⟨⟨h1, k1, h2, k2⟩, by rw [Affine.inv_app_app u hu]; exact hq⟩
  have hct : c.tf = A := hn2 c (List.mem_of_getElem? hc)
  have hx : (den m)[i].tf = u * A ∧ (den m)[i].id = c.id ∧ (den m)[i].ch = c.ch ∧ (den m)[i].qs = c.qs := by
    rcases hle.2 with h3 | ⟨e1, e2, e3, e4⟩
    · exact absurd (hdom p hp h0.1 h0.2) (h3 _)
    · refine ⟨?_, e1, e2, e4⟩
      rw [e3]; simp only [Chan.map, hct]
  refine ⟨?_, (den m)[i], List.getElem?_eq_getElem hi', hx.2.1, hx.2.2.1, hx.2.2.2, hx.1, ?_⟩
  · rw [ht1, ← ht2 _ (List.getElem_mem hi'), hx.1]
  · intro q hq h1 h2
    exact hle.1 _ (hdom q hq h1 h2)

theorem undo_eq {H : Heur} {D : Affine → Comps} {fuel : Nat} {n m : Node} {rm rt : Option (List Key)}
    {ret : Bool} {w A : Affine} (hA : leafTf n = .ok A)
    (h : undoWarp H D fuel n rm rt false ret = .ok (m, w)) :
    ∃ keep, rectifyRetain rm rt = .ok keep ∧ w = ((D A.inv).without keep).compose ∧
      opt H fuel (warp H.closeId n (some w) none .default false) = .ok m := by
  unfold undoWarp at h
  split at h
  · cases h
  · rename_i keep hk
    simp only [undoRetain, hA] at h
    split at h
    · cases h
    · rename_i u hu
      simp only [squash, Bool.false_eq_true, if_false, Except.ok.injEq, Prod.mk.injEq] at h
      obtain ⟨rfl, rfl⟩ := h
      exact ⟨keep, hk, rfl, hu⟩

theorem without_det {m : Affine} {c : Comps} (h : Parts m c) (hm : m.det ≠ 0) (keep : List Key) :
    (c.without keep).compose.det ≠ 0 := by
  have hy := h.sy hm
  have hx := h.pos
  have hu := h.unit
  rw [compose_det]
  · simp only [Comps.without]
    split
    · simp
    · exact mul_ne_zero hx.ne' hy
  · simp only [Comps.without]
    split
    · norm_num
    · exact hu

/-- What a channel shows is inside the leaf. -/
theorem chan_in_leaf : ∀ (n : Node), Chain n → WF n → ∀ c ∈ den n, ∀ p, c.dom p →
    0 < (c.tf.inv.app p).1 ∧ 0 < (c.tf.inv.app p).2
  | .leaf l, _, _ => by
    intro c hc p hp
    simp only [den, List.mem_map] at hc
    obtain ⟨i, _, rfl⟩ := hc
    obtain ⟨-, h1, -, h2, -⟩ := hp
    simp only [Chan.leaf, Affine.inv_id, Affine.app_id]
    exact ⟨h1, h2⟩
  | .concat _ _, h, _ => h.elim
  | .warp s tf d a, h, hw => by
    intro c hc p hp
    simp only [den, List.mem_map] at hc
    obtain ⟨c', hc', rfl⟩ := hc
    simp only [Chan.map]
    rw [Affine.inv_mul_rev _ _ hw.2 (den_det s hw.1 c' hc'), Affine.app_mul]
    exact chan_in_leaf s h hw.1 c' hc' _ hp.2
  | .crop s y0 y1 x0 x1 cs, h, hw => by
    intro c hc p hp
    simp only [den, List.mem_map] at hc
    obtain ⟨c', hc', rfl⟩ := hc
    have : c' ∈ den s := by
      cases cs with
      | none => exact hc'
      | some cs =>
        simp only [pick, List.mem_map] at hc'
        obtain ⟨i, hi, rfl⟩ := hc'
        have := hw.2.2.2 i hi
        rw [← den_length] at this
        rw [List.getD_eq_getElem _ _ this]
        exact List.getElem_mem this
    simp only [Chan.map]
    rw [Affine.inv_mul_rev _ _ (by simp) (den_det s hw.1 c' this), Affine.app_mul]
    exact chan_in_leaf s h hw.1 c' this _ hp.2
  | .overview s k d, h, hw => by
    intro c hc p hp
    simp only [den, List.mem_map] at hc
    obtain ⟨c', hc', rfl⟩ := hc
    simp only [Chan.map]
    rw [Affine.inv_mul_rev _ _ (det_ovScale k) (den_det s hw c' hc'), Affine.app_mul]
    exact chan_in_leaf s h hw c' hc' _ hp.2
  | .dequant s q d, h, hw => by
    intro c hc p hp
    simp only [den, List.mem_map] at hc
    obtain ⟨c', hc', rfl⟩ := hc
    simp only [Chan.map, Chan.deq, Affine.id_mul]
    have := hp.2
    rw [Affine.inv_id, Affine.app_id] at this
    exact chan_in_leaf s h hw c' hc' _ this

/-! ### C41 -/

/-- C41: `remove` and `retain` exclude each other, and one is the complement of the other. -/
theorem C41_arguments (remove retain : Option (List Key)) :
    (remove.isSome ∧ retain.isSome → rectifyRetain remove retain = .error .valueError) ∧
    (∀ keep, rectifyRetain remove retain = .ok keep → ∀ k, k ∈ keep ↔
      match remove with
      | some rm => k ∉ rm
      | none => ∃ rt, retain = some rt ∧ k ∈ rt) := by
  cases remove <;> cases retain <;> simp [rectifyRetain]
  intro k _
  cases k <;> simp

/-- C41: the returned warp is the transform from the image to the result; the result comes from the same
leaf channel and shows everything whose new position is inside the plane of an image (positive coordinates).
`D` is the decomposition made by kwimage. -/
theorem C41_returned (H : Heur) (D : Affine → Comps) {n m : Node} (hH : Sharp H n) (hb : Built n)
    {A w : Affine} (hA : leafTf n = .ok A) (hD : Parts A.inv (D A.inv)) {rm rt : Option (List Key)}
    {ret : Bool} {fuel : Nat} (h : undoWarp H D fuel n rm rt false ret = .ok (m, w))
    {i : Nat} {c : Chan} (hc : (den n)[i]? = some c) {p : ℚ × ℚ} (hp : c.dom p)
    (h0 : 0 < (w.app p).1 ∧ 0 < (w.app p).2) :
    transformFrom m n = .ok w ∧ leafTf m = .ok (w * A) ∧
    ∃ c', (den m)[i]? = some c' ∧ c'.id = c.id ∧ c'.ch = c.ch ∧ c'.qs = c.qs ∧ c'.tf = w * c.tf ∧
      ∀ q, c.dom q → 0 < (w.app q).1 → 0 < (w.app q).2 → c'.dom (w.app q) := by
  have hd := leafTf_det n hb.ok.1 hA
  obtain ⟨keep, hk, hw, ho⟩ := undo_eq hA h
  have hwd : w.det ≠ 0 := by rw [hw]; exact without_det hD (Affine.det_inv A hd) keep
  obtain ⟨h1, c', h2, h3, h4, h5, h6, h7⟩ := undo_core H hH hb hA hwd ho hc hp h0
  have hct : c.tf = A := by
    obtain ⟨t, ht, hall⟩ := chain_tf n (chain_of_leafTf n hA) hb.ok.1
    rw [hA] at ht
    cases ht
    exact hall c (List.mem_of_getElem? hc)
  refine ⟨?_, h1, c', h2, h3, h4, h5, by rw [h6, hct], h7⟩
  unfold transformFrom
  rw [hA, h1]
  simp only [Affine.mul_assoc', Affine.mul_inv A hd, Affine.mul_id]

/-- C41: without arguments everything is undone: the transform from the leaf is the identity, and
everything that the image shows is shown at its position in the leaf. -/
theorem C41_undo_all (H : Heur) (D : Affine → Comps) {n m : Node} (hH : Sharp H n) (hb : Built n)
    {A w : Affine} (hA : leafTf n = .ok A) (hD : Parts A.inv (D A.inv)) {rm rt : Option (List Key)}
    (hall : (rm = none ∧ (rt = none ∨ rt = some [])) ∨ ∃ l, rm = some l ∧ rt = none ∧ ∀ k, k ∈ l)
    {ret : Bool} {fuel : Nat} (h : undoWarp H D fuel n rm rt false ret = .ok (m, w))
    {i : Nat} {c : Chan} (hc : (den n)[i]? = some c) (hv : Visible c) :
    leafTf m = .ok .id ∧
    ∃ c', (den m)[i]? = some c' ∧ c'.id = c.id ∧ c'.ch = c.ch ∧ c'.qs = c.qs ∧ c'.tf = .id ∧
      ∀ q, c.dom q → c'.dom (c.tf.inv.app q) := by
  have hd := leafTf_det n hb.ok.1 hA
  have hch := chain_of_leafTf n hA
  obtain ⟨keep, hk, hw, ho⟩ := undo_eq hA h
  have hke : keep = [] := by
    rcases hall with ⟨rfl, rfl | rfl⟩ | ⟨l, rfl, rfl, hl⟩
    · cases hk; rfl
    · cases hk; rfl
    · simp only [rectifyRetain, Except.ok.injEq] at hk
      subst hk
      simp [hl]
  subst hke
  have hwA : w = A.inv := by
    rw [hw]
    refine Eq.trans ?_ hD.compose
    simp [Comps.without]
  have hct : c.tf = A := by
    obtain ⟨t, ht, hall⟩ := chain_tf n hch hb.ok.1
    rw [hA] at ht
    cases ht
    exact hall c (List.mem_of_getElem? hc)
  have hin := chan_in_leaf n hch hb.ok.1 c (List.mem_of_getElem? hc)
  rw [hct, ← hwA] at hin
  obtain ⟨p, hp⟩ := hv
  obtain ⟨-, h1, c', h2, h3, h4, h5, h6, h7⟩ := C41_returned H D hH hb hA hD h hc hp (hin p hp)
  have hid : w * A = .id := by rw [hwA, Affine.inv_mul A hd]
  rw [hid] at h1
  refine ⟨h1, c', h2, h3, h4, h5, by rw [h6, hct, hid], ?_⟩
  intro q hq
  rw [hct, ← hwA]
  exact h7 q hq (hin q hq).1 (hin q hq).2

/-- The value of a component. -/
def Same (c c' : Comps) : Key → Prop
  | .offset => c.offset = c'.offset
  | .scale => c.scale = c'.scale
  | .shearx => c.shearx = c'.shearx
  | .theta => c.theta = c'.theta

/-- Position in the order in which components are applied, last first. -/
def rank : Key → Nat
  | .offset => 0
  | .theta => 1
  | .shearx => 2
  | .scale => 3

/-- The components in `keep`, with the others doing nothing. -/
def only (c : Comps) (keep : List Key) : Comps :=
  ⟨if .offset ∈ keep then c.offset else (0, 0), if .scale ∈ keep then c.scale else (1, 1),
   if .shearx ∈ keep then c.shearx else 0, if .theta ∈ keep then c.theta else (1, 0)⟩

theorem only_mul_without (c : Comps) (keep : List Key)
    (hlate : ∀ k, k ∉ keep → ∀ j, rank k < rank j → j ∉ keep ∨ Trivial c j) :
    (only c keep).compose * (c.without keep).compose = c.compose := by
  have h1 := fun h => hlate .offset h .theta (by decide)
  have h2 := fun h => hlate .offset h .shearx (by decide)
  have h3 := fun h => hlate .offset h .scale (by decide)
  have h4 := fun h => hlate .theta h .shearx (by decide)
  have h5 := fun h => hlate .theta h .scale (by decide)
  have h6 := fun h => hlate .shearx h .scale (by decide)
  clear hlate
  obtain ⟨⟨ox, oy⟩, ⟨sx, sy⟩, k, ⟨co, si⟩⟩ := c
  simp only [Trivial, Prod.mk.injEq] at h1 h2 h3 h4 h5 h6
  by_cases k1 : Key.offset ∈ keep <;> by_cases k2 : Key.theta ∈ keep <;>
    by_cases k3 : Key.shearx ∈ keep <;> by_cases k4 : Key.scale ∈ keep <;>
    simp only [k1, k2, k3, k4, not_true_eq_false, not_false_eq_true, false_or, true_or,
      forall_const, false_implies, implies_true] at h1 h2 h3 h4 h5 h6 <;>
    simp only [only, Comps.without, Comps.compose, k1, k2, k3, k4, if_true, if_false, Affine.mul_def,
      Affine.mul] <;> ext <;> simp_all <;> ring

/-- C41: the transform from the result back to the leaf has the components that the one from the image
has where they are retained, and no others, if the removed components are the ones applied first: every
component applied before a removed one is removed too or does nothing.  Missing: other choices
(`C41_offset_violated`, `C41_empty_violated`). -/
theorem C41_components_partial (H : Heur) (D : Affine → Comps) {n m : Node} (hH : Sharp H n) (hb : Built n)
    {A w : Affine} (hA : leafTf n = .ok A) (hD : Parts A.inv (D A.inv)) {rm rt : Option (List Key)}
    {keep : List Key} (hk : rectifyRetain rm rt = .ok keep)
    (hlate : ∀ k, k ∉ keep → ∀ j, rank k < rank j → j ∉ keep ∨ Trivial (D A.inv) j)
    {ret : Bool} {fuel : Nat} (h : undoWarp H D fuel n rm rt false ret = .ok (m, w))
    {i : Nat} {c : Chan} (hc : (den n)[i]? = some c) {p : ℚ × ℚ} (hp : c.dom p)
    (h0 : 0 < (w.app p).1 ∧ 0 < (w.app p).2) :
    ∃ B c', leafTf m = .ok B ∧ Parts B.inv c' ∧ (∀ k ∈ keep, Same c' (D A.inv) k) ∧
      ∀ k, k ∉ keep → Trivial c' k := by
  have hd := leafTf_det n hb.ok.1 hA
  obtain ⟨keep', hk', hw, -⟩ := undo_eq hA h
  rw [hk] at hk'
  cases hk'
  have hwd : w.det ≠ 0 := by rw [hw]; exact without_det hD (Affine.det_inv A hd) keep
  obtain ⟨-, h1, -⟩ := C41_returned H D hH hb hA hD h hc hp h0
  refine ⟨_, only (D A.inv) keep, h1, ?_, ?_, ?_⟩
  · rw [parts_iff, Affine.inv_mul_rev w A hwd hd]
    refine ⟨?_, ?_, ?_⟩
    · have := only_mul_without (D A.inv) keep hlate
      rw [hD.compose, ← hw] at this
      have e : A.inv * w.inv = (only (D A.inv) keep).compose := by
        conv_lhs => rw [← this]
        rw [Affine.mul_assoc', Affine.mul_inv w hwd, Affine.mul_id]
      rw [e]
    · simp only [only]
      split
      · exact hD.unit
      · norm_num
    · simp only [only]
      split
      · exact hD.pos
      · norm_num
  · intro k hk
    cases k <;> simp [only, Same, hk]
  · intro k hk
    cases k <;> simp [only, Trivial, hk]

/-- C41, the documented use `remove=['scale']`: an image that is scaled uniformly and rotated, or scaled
along the axes, and moved, becomes one in the scale of the leaf, with the same rotation, no shear, and the
offset in units of the leaf; nothing is lost. -/
theorem C41_native_scale (H : Heur) (D : Affine → Comps) {n m : Node} (hH : Sharp H n) (hb : Built n)
    {A w : Affine} (hA : leafTf n = .ok A) (hD : Parts A.inv (D A.inv)) {a : Comps} (ha : Parts A a)
    (hk : a.shearx = 0) (hpos : 0 < a.scale.2) (hs : a.scale.1 = a.scale.2 ∨ a.theta = (1, 0))
    {ret : Bool} {fuel : Nat} (h : undoWarp H D fuel n (some [.scale]) none false ret = .ok (m, w))
    {i : Nat} {c : Chan} (hc : (den n)[i]? = some c) (hv : Visible c) :
    ∃ B, leafTf m = .ok B ∧
      Parts B ⟨(a.offset.1 / a.scale.1, a.offset.2 / a.scale.2), (1, 1), 0, a.theta⟩ ∧
      (∀ p, w.app p = (p.1 / a.scale.1, p.2 / a.scale.2)) ∧
      ∃ c', (den m)[i]? = some c' ∧ c'.id = c.id ∧ c'.ch = c.ch ∧ c'.qs = c.qs ∧
        ∀ q, c.dom q → c'.dom (w.app q) := by
  have hd := leafTf_det n hb.ok.1 hA
  have hx := ha.pos
  have hu := ha.unit
  obtain ⟨keep, hk', hw, -⟩ := undo_eq hA h
  have hcomp := ha.compose
  -- the components of the inverse
  have hparts : Parts A.inv
      ⟨(-(a.theta.1 * a.offset.1 + a.theta.2 * a.offset.2) / a.scale.1,
        (a.theta.2 * a.offset.1 - a.theta.1 * a.offset.2) / a.scale.2),
       (1 / a.scale.1, 1 / a.scale.2), 0, (a.theta.1, -a.theta.2)⟩ := by
    rw [parts_iff]
    refine ⟨?_, by simpa using hu, by simpa using hx⟩
    apply Affine.inv_unique _ _ hd
    rw [← hcomp]
    have hx' := hx.ne'
    have hy' := hpos.ne'
    obtain ⟨⟨ox, oy⟩, ⟨sx, sy⟩, k, ⟨co, si⟩⟩ := a
    simp only at hk hs hu hx' hy' ⊢
    subst hk
    rcases hs with rfl | hs
    · ext <;> simp only [Comps.compose, Affine.mul_def, Affine.mul, Affine.id] <;> field_simp <;>
        first | ring1 | linear_combination hu
    · cases hs
      ext <;> simp only [Comps.compose, Affine.mul_def, Affine.mul, Affine.id] <;> field_simp <;> ring
  have hDe := hD.unique (Affine.det_inv A hd) hparts
  have hwe : w = ⟨1 / a.scale.1, 0, 0, 0, 1 / a.scale.2, 0⟩ := by
    cases hk'
    rw [hw, hDe]
    ext <;> simp [Comps.without, Comps.compose]
  have hwa : ∀ p : ℚ × ℚ, w.app p = (p.1 / a.scale.1, p.2 / a.scale.2) := by
    intro p
    rw [hwe]
    simp only [Affine.app, Prod.mk.injEq]
    constructor <;> ring
  have hin : ∀ q, c.dom q → 0 < (w.app q).1 ∧ 0 < (w.app q).2 := by
    intro q hq
    obtain ⟨k1, -, k2, -⟩ := den_in n hb.ok.1 c (List.mem_of_getElem? hc) q hq
    rw [hwa]
    exact ⟨div_pos k1 hx, div_pos k2 hpos⟩
  obtain ⟨p, hp⟩ := hv
  obtain ⟨-, h1, c', h2, h3, h4, h5, h6, h7⟩ := C41_returned H D hH hb hA hD h hc hp (hin p hp)
  refine ⟨_, h1, ?_, hwa, c', h2, h3, h4, h5, fun q hq => h7 q hq (hin q hq).1 (hin q hq).2⟩
  rw [parts_iff]
  refine ⟨?_, hu, by simp⟩
  rw [hwe, ← hcomp]
  have hx' := hx.ne'
  have hy' := hpos.ne'
  clear hparts hDe hwe hwa
  obtain ⟨⟨ox, oy⟩, ⟨sx, sy⟩, k, ⟨co, si⟩⟩ := a
  simp only at hk hs hu hx' hy' ⊢
  subst hk
  rcases hs with rfl | hs
  · ext <;> simp only [Comps.compose, Affine.mul_def, Affine.mul] <;> field_simp <;> ring
  · cases hs
    ext <;> simp only [Comps.compose, Affine.mul_def, Affine.mul] <;> field_simp <;> ring

/-- C41: with `squash_nans` a part without data becomes one pixel, and the returned warp maps its canvas
to that pixel. -/
theorem C41_squash (H : Heur) (fuel : Nat) {l : Leaf} (hn : l.nan = true) (u : Affine)
    (hd : 1 ≤ l.dsize.1 ∧ 1 ≤ l.dsize.2) {m : Node} {w : Affine}
    (h : squash H fuel (.leaf l) u true true = .ok (m, w)) :
    m.dsize = (1, 1) ∧ m.channels = l.names ∧ (∀ c ∈ den m, ∀ p, ¬ c.dom p) ∧
    ∀ p, In l.dsize (u.app p) ↔ In (1, 1) (w.app p) := by
  have hmk : mkCrop (.leaf l : Node) (ints 0 1 0 1) none = .ok (.crop (.leaf l) 0 1 0 1 none) := by
    simp only [mkCrop, chanCheck, ints, normSlice, normBound, dsize]
    have e1 : max 0 (min l.dsize.2 0) = 0 := by omega
    have e2 : max 0 (min l.dsize.2 1) = 1 := by omega
    have e3 : max 0 (min l.dsize.1 0) = 0 := by omega
    have e4 : max 0 (min l.dsize.1 1) = 1 := by omega
    simp [e1, e2, e3, e4]
  have hemb : ∀ D : Int, 1 ≤ D → embedSlice 0 1 D 0 0 = .ok ((0, 1), (0, 0)) := by
    intro D hD
    unfold embedSlice
    simp
    omega
  have hopt : ∀ r : Node, opt H fuel (.crop (.leaf l) 0 1 0 1 none) = .ok r → r = nanLeaf l.id (1, 1) l.names := by
    intro r hr
    cases fuel with
    | zero => simp [opt] at hr
    | succ f =>
      cases f with
      | zero => simp [opt, optStep, optCrop] at hr
      | succ f =>
        have hl : opt H (f + 1) (.leaf l : Node) = .ok (.leaf l) := rfl
        have hl2 : ∀ k d ns, opt H (f + 1) (nanLeaf k d ns : Node) = .ok (nanLeaf k d ns) := fun _ _ _ => rfl
        change optCrop (opt H (f + 1)) (.leaf l) 0 1 0 1 none = .ok r at hr
        simp only [optCrop, hl, hn, if_true, nanCrop, hemb _ hd.1, hemb _ hd.2, hl2, sub_zero,
          Except.ok.injEq] at hr
        exact hr.symm
  have h1 : l.dsize.1 ≠ 0 := by omega
  have h2 : l.dsize.2 ≠ 0 := by omega
  simp only [squash, if_true, dsize, h1, h2, or_self, and_false, if_false, hn, hmk] at h
  split at h
  · cases h
  · rename_i r hr
    simp only [Except.ok.injEq, Prod.mk.injEq] at h
    obtain ⟨rfl, rfl⟩ := h
    rw [hopt _ hr]
    refine ⟨rfl, rfl, ?_, ?_⟩
    · intro c hc p hp
      simp only [nanLeaf, den, List.mem_map] at hc
      obtain ⟨i, _, rfl⟩ := hc
      simp [Chan.leaf] at hp
    · intro p
      have k1 : (0 : ℚ) < l.dsize.1 := by exact_mod_cast hd.1
      have k2 : (0 : ℚ) < l.dsize.2 := by exact_mod_cast hd.2
      rw [Affine.app_mul]
      generalize u.app p = q
      simp only [In, Affine.app, zero_mul, add_zero, zero_add, Int.cast_one]
      rw [one_div_mul_eq_div, one_div_mul_eq_div, div_lt_one k1, div_lt_one k2, div_pos_iff_of_pos_right k1,
        div_pos_iff_of_pos_right k2]

/-- Squashing does not depend on whether the warp is wanted, except for images without pixels. -/
theorem squash_warp (H : Heur) (fuel : Nat) (n : Node) (u : Affine) (nans : Bool) :
    (∀ m w, squash H fuel n u nans true = .ok (m, w) → squash H fuel n u nans false = .ok (m, u)) ∧
    (nans = false ∨ n.dsize.1 ≠ 0 ∧ n.dsize.2 ≠ 0 → ∀ m w, squash H fuel n u nans false = .ok (m, w) →
      ∃ w', squash H fuel n u nans true = .ok (m, w')) ∧
    (nans = true → n.dsize.1 = 0 ∨ n.dsize.2 = 0 → squash H fuel n u nans true = .error .generic) := by
  cases nans with
  | false =>
    refine ⟨?_, ?_, by simp⟩
    · intro m w h
      simp only [squash, Bool.false_eq_true, if_false, Except.ok.injEq, Prod.mk.injEq] at h ⊢
      exact ⟨h.1, trivial⟩
    · intro _ m w h
      simp only [squash, Bool.false_eq_true, if_false, Except.ok.injEq, Prod.mk.injEq] at h ⊢
      exact ⟨u, h.1, rfl⟩
  | true =>
    by_cases hz : n.dsize.1 = 0 ∨ n.dsize.2 = 0
    · refine ⟨?_, ?_, ?_⟩
      · intro m w h
        simp [squash, hz] at h
      · intro h
        rcases h with h | h
        · cases h
        · exact (hz.elim h.1 h.2).elim
      · intro _ _
        simp [squash, hz]
    · simp only [squash, if_true, hz, and_false, if_false, Bool.false_eq_true, false_and]
      cases n with
      | leaf l =>
        simp only
        by_cases hn : l.nan = true
        · simp only [if_pos hn]
          cases mkCrop (.leaf l : Node) (ints 0 1 0 1) none with
          | error e => simp
          | ok cr =>
            simp only
            cases opt H fuel cr <;> simp
        · simp [if_neg hn]
      | _ => simp

/-- C41: asking for the warp (`return_warp`) does not change the image.  With `squash_nans` it raises exactly
if the image that would be returned without squashing has no pixels. -/
theorem C41_return_warp (H : Heur) (D : Affine → Comps) (fuel : Nat) (n : Node) (rm rt : Option (List Key))
    (nans : Bool) {m₀ : Node} {w₀ : Affine} (h₀ : undoWarp H D fuel n rm rt false false = .ok (m₀, w₀)) :
    (∀ m w, undoWarp H D fuel n rm rt nans true = .ok (m, w) → undoWarp H D fuel n rm rt nans false = .ok (m, w₀)) ∧
    (nans = false ∨ m₀.dsize.1 ≠ 0 ∧ m₀.dsize.2 ≠ 0 → ∀ m w, undoWarp H D fuel n rm rt nans false = .ok (m, w) →
      ∃ w', undoWarp H D fuel n rm rt nans true = .ok (m, w')) ∧
    (nans = true → m₀.dsize.1 = 0 ∨ m₀.dsize.2 = 0 → undoWarp H D fuel n rm rt nans true = .error .generic) := by
  unfold undoWarp at h₀ ⊢
  cases hk : rectifyRetain rm rt with
  | error e => rw [hk] at h₀; cases h₀
  | ok keep =>
    rw [hk] at h₀
    simp only [undoRetain] at h₀ ⊢
    cases hl : leafTf n with
    | error e => rw [hl] at h₀; cases h₀
    | ok A =>
      rw [hl] at h₀
      simp only at h₀ ⊢
      cases ho : opt H fuel (warp H.closeId n (some ((D A.inv).without keep).compose) none .default false) with
      | error e => rw [ho] at h₀; cases h₀
      | ok r =>
        rw [ho] at h₀
        simp only [squash, Bool.false_eq_true, if_false, Except.ok.injEq, Prod.mk.injEq] at h₀
        obtain ⟨rfl, rfl⟩ := h₀
        exact squash_warp H fuel r _ nans

/-- C41: `undo_warps` does the same to every part. -/
theorem C41_undo_warps (H : Heur) (D : Affine → Comps) (fuel : Nat) (ps : List Node)
    (rm rt : Option (List Key)) (nans ret : Bool) (rs : List (Node × Affine))
    (h : undoWarps H D fuel ps rm rt nans ret = .ok rs) :
    List.Forall₂ (fun p r => undoWarp H D fuel p rm rt nans ret = .ok r) ps rs := by
  unfold undoWarps at h
  split at h
  · cases h
  · rename_i keep hk
    refine (mapAll_ok h).imp fun p r hr => ?_
    rw [undoWarp, hk]
    simpa [undoWarp, rectifyRetain] using hr

/-! #### examples and disagreements -/

/-- An image of 10 by 20 pixels with two channels. -/
def undoLeaf : Node := .leaf ⟨1, (10, 20), 2, none, none, false⟩

theorem undoLeaf_built : Built undoLeaf := .leaf _ ⟨by simp, by simp⟩ ⟨by decide, by decide⟩

/-- The image scaled by two and moved by ten, of which a part is kept. -/
def undoDemo : Node :=
  .crop (mkWarp undoLeaf ⟨2, 0, 10, 0, 2, 10⟩ (some (40, 60)) .default) 2 50 4 30 (some [1])

theorem undoDemo_built : Built undoDemo :=
  .crop _ _ (ints 2 50 4 30) (some [1])
    (.warp _ _ _ _ undoLeaf_built (by simp [Affine.det]) ⟨by decide, by decide⟩)
    (by simp [IdxOk, mkWarp, undoLeaf, nchan]) rfl

theorem undoDemo_tf : leafTf undoDemo = .ok ⟨2, 0, 6, 0, 2, 8⟩ := by decide +kernel

/-- The components of the inverse. -/
def undoDemoParts : Comps := ⟨(-3, -4), (1 / 2, 1 / 2), 0, (1, 0)⟩

theorem undoDemo_parts : Parts (⟨2, 0, 6, 0, 2, 8⟩ : Affine).inv undoDemoParts := by
  rw [parts_iff]
  decide +kernel

/-- The hypotheses of `C41_returned`, `C41_undo_all`, `C41_components_partial` and `C41_native_scale` hold
together: the call succeeds, a channel shows something that stays at positive coordinates. -/
example :
    (∃ m w, undoWarp .code (fun _ => undoDemoParts) 20 undoDemo (some [.scale]) none false true = .ok (m, w)) ∧
    (∃ m w, undoWarp .code (fun _ => undoDemoParts) 20 undoDemo none none false true = .ok (m, w)) ∧
    (∃ c, (den undoDemo)[0]? = some c ∧ c.ch = 1 ∧ c.dom (20, 30)) ∧
    (∀ k, k ∉ [Key.offset, .shearx, .theta] → ∀ j, rank k < rank j →
      j ∉ [Key.offset, .shearx, .theta] ∨ Trivial undoDemoParts j) ∧
    Parts ⟨2, 0, 6, 0, 2, 8⟩ ⟨(6, 8), (2, 2), 0, (1, 0)⟩ ∧ Sharp .code undoDemo := by
  refine ⟨?_, ?_, ?_, ?_, ?_, sharp_code (.inl rfl) ⟨rfl, trivial⟩⟩
  · obtain ⟨⟨m, w⟩, h, -⟩ := holds_ok (x := undoWarp .code (fun _ => undoDemoParts) 20 undoDemo
      (some [.scale]) none false true) (f := fun _ => true) (by decide +kernel)
    exact ⟨m, w, h⟩
  · obtain ⟨⟨m, w⟩, h, -⟩ := holds_ok (x := undoWarp .code (fun _ => undoDemoParts) 20 undoDemo
      none none false true) (f := fun _ => true) (by decide +kernel)
    exact ⟨m, w, h⟩
  · refine ⟨_, rfl, rfl, ?_⟩
    simp [den, undoLeaf, pick, Chan.map, Chan.leaf, In, Affine.trans, Affine.inv, Affine.det, Affine.app,
      mkWarp]
    norm_num
  · intro k hk j hj
    cases k <;> cases j <;> simp_all [rank]
  · rw [parts_iff]
    decide +kernel

/-- C41, what fails: removing only the offset of a scaled image does not remove it. -/
theorem C41_offset_violated : ∃ (n : Node) (D : Affine → Comps) (A : Affine) (m : Node) (w B : Affine),
    Built n ∧ leafTf n = .ok A ∧ Parts A.inv (D A.inv) ∧
    undoWarp .exact D 20 n (some [.offset]) none false true = .ok (m, w) ∧ leafTf m = .ok B ∧
    ∀ c, Parts B c → ¬ Trivial c .offset := by
  obtain ⟨⟨m, w⟩, h, hf⟩ := holds_ok (x := undoWarp .exact (fun _ => undoDemoParts) 20 undoDemo
    (some [.offset]) none false true) (f := fun r => decide (leafTf r.1 = .ok ⟨2, 0, 3, 0, 2, 4⟩))
    (by decide +kernel)
  refine ⟨undoDemo, fun _ => undoDemoParts, _, m, w, _, undoDemo_built, undoDemo_tf, undoDemo_parts, h,
    of_decide_eq_true hf, ?_⟩
  intro c hc ht
  have := hc.offset
  rw [ht] at this
  simp [Affine.app] at this

/-- An image turned by 90 degrees. -/
def undoTurned : Node := mkWarp undoLeaf ⟨0, -1, 20, 1, 0, 0⟩ (some (20, 10)) .default

theorem undoTurned_built : Built undoTurned :=
  .warp _ _ _ _ undoLeaf_built (by simp [Affine.det]) ⟨by decide, by decide⟩

/-- C41, what fails: undoing the rotation of an image but not its offset turns the image out of the canvas
and gives an image without pixels. -/
theorem C41_empty_violated : ∃ (n : Node) (D : Affine → Comps) (A : Affine) (m : Node) (w : Affine),
    Built n ∧ n.dsize = (20, 10) ∧ leafTf n = .ok A ∧ Parts A.inv (D A.inv) ∧
    undoWarp .exact D 20 n none (some [.offset]) false true = .ok (m, w) ∧ m.dsize = (10, 0) := by
  obtain ⟨⟨m, w⟩, h, hf⟩ := holds_ok (x := undoWarp .exact (fun _ => ⟨(0, 20), (1, 1), 0, (0, -1)⟩) 20
    undoTurned none (some [.offset]) false true) (f := fun r => decide (r.1.dsize = (10, 0)))
    (by decide +kernel)
  refine ⟨undoTurned, fun _ => ⟨(0, 20), (1, 1), 0, (0, -1)⟩, ⟨0, -1, 20, 1, 0, 0⟩, m, w, undoTurned_built, rfl,
    by decide +kernel, ?_, h, of_decide_eq_true hf⟩
  rw [parts_iff]
  decide +kernel

/-- C41, what fails: with a shear and a rotation, removing the scale leaves a scale. -/
theorem C41_scale_violated : ∃ (n : Node) (D : Affine → Comps) (A : Affine) (m : Node) (w B : Affine),
    Built n ∧ leafTf n = .ok A ∧ Parts A.inv (D A.inv) ∧
    undoWarp .exact D 20 n (some [.scale]) none false true = .ok (m, w) ∧ leafTf m = .ok B ∧
    ∀ c, Parts B c → ¬ Trivial c .scale := by
  obtain ⟨⟨m, w⟩, h, hf⟩ := holds_ok (x := undoWarp .exact (fun _ => ⟨(0, 0), (1, 1), 1, (3 / 5, 4 / 5)⟩) 20
    (mkWarp undoLeaf ⟨7 / 5, 1 / 5, 0, -4 / 5, 3 / 5, 0⟩ (some (20, 20)) .default) (some [.scale]) none false true)
    (f := fun r => decide (leafTf r.1 = .ok ⟨7 / 5, 1 / 5, 0, -4 / 5, 3 / 5, 0⟩)) (by decide +kernel)
  refine ⟨_, fun _ => ⟨(0, 0), (1, 1), 1, (3 / 5, 4 / 5)⟩, ⟨7 / 5, 1 / 5, 0, -4 / 5, 3 / 5, 0⟩, m, w, _,
    .warp _ _ _ _ undoLeaf_built (by norm_num [Affine.det]) ⟨by decide, by decide⟩,
    by decide +kernel, ?_, h, of_decide_eq_true hf, ?_⟩
  · rw [parts_iff]
    decide +kernel
  · intro c hc ht
    have h1 := hc.offset
    have h2 := hc.ex
    have h3 := hc.unit
    rw [ht, ← h1] at h2
    simp only [Affine.app, Prod.mk.injEq] at h2
    obtain ⟨h2, h4⟩ := h2
    have e1 : c.theta.1 = 7 / 5 := by linarith
    rw [e1] at h3
    nlinarith [sq_nonneg c.theta.2]

/-- C41, what fails: with `squash_nans` and `return_warp` the returned warp of an ordinary image is not the
transform from the image to the result. -/
theorem C41_squash_violated : ∃ (n : Node) (D : Affine → Comps) (m : Node) (w T : Affine),
    Built n ∧ (∀ A : Affine, leafTf n = .ok A → Parts A.inv (D A.inv)) ∧
    undoWarp .exact D 20 n none none true true = .ok (m, w) ∧ transformFrom m n = .ok T ∧ T ≠ w := by
  obtain ⟨⟨m, w⟩, h, hf⟩ := holds_ok (x := undoWarp .exact (fun _ => ⟨(0, 0), (1, 1), 0, (1, 0)⟩) 20
    undoLeaf none none true true)
    (f := fun r => decide (leafTf r.1 = .ok .id ∧ r.2 ≠ .id)) (by decide +kernel)
  obtain ⟨h1, h2⟩ := of_decide_eq_true hf
  refine ⟨undoLeaf, fun _ => ⟨(0, 0), (1, 1), 0, (1, 0)⟩, m, w, .id, undoLeaf_built, ?_, h, ?_, fun e => h2 e.symm⟩
  · intro A hA
    cases hA
    rw [parts_iff]
    decide +kernel
  · have : leafTf undoLeaf = .ok .id := rfl
    unfold transformFrom
    rw [this, h1]
    simp

/-- The hypotheses of `C41_squash`. -/
example : ∃ m w, squash .exact 20 (nanLeaf 0 (30, 40) (some [p! "N"])) (.scale 2) true true = .ok (m, w) := by
  obtain ⟨⟨m, w⟩, h, -⟩ := holds_ok (x := squash .exact 20 (nanLeaf 0 (30, 40) (some [p! "N"])) (.scale 2) true true)
    (f := fun _ => true) (by decide +kernel)
  exact ⟨m, w, h⟩

/-- `undo_warps` on two parts. -/
example : ∃ rs, undoWarps .exact (fun _ => undoDemoParts) 20 [undoDemo, undoDemo] (some [.scale]) none false true
    = .ok rs ∧ rs.length = 2 := by
  obtain ⟨rs, h, hl⟩ := holds_ok (x := undoWarps .exact (fun _ => undoDemoParts) 20 [undoDemo, undoDemo]
    (some [.scale]) none false true) (f := fun r => decide (r.length = 2)) (by decide +kernel)
  exact ⟨rs, h, of_decide_eq_true hl⟩

/-- An image with data and one without pixels. -/
example : (∃ m w, undoWarp .exact (fun _ => undoDemoParts) 20 undoDemo (some [.scale]) none false false = .ok (m, w) ∧
      m.dsize.1 ≠ 0 ∧ m.dsize.2 ≠ 0) ∧
    ∃ m w, undoWarp .exact (fun _ => undoDemoParts) 20 (nanLeaf 0 (0, 4) (some [p! "N"])) (some []) none false false =
      .ok (m, w) ∧ m.dsize.1 = 0 := by
  constructor
  · obtain ⟨⟨m, w⟩, h, hl⟩ := holds_ok (x := undoWarp .exact (fun _ => undoDemoParts) 20 undoDemo (some [.scale])
      none false false) (f := fun r => decide (r.1.dsize.1 ≠ 0 ∧ r.1.dsize.2 ≠ 0)) (by decide +kernel)
    exact ⟨m, w, h, (of_decide_eq_true hl).1, (of_decide_eq_true hl).2⟩
  · obtain ⟨⟨m, w⟩, h, hl⟩ := holds_ok (x := undoWarp .exact (fun _ => undoDemoParts) 20
      (nanLeaf 0 (0, 4) (some [p! "N"])) (some []) none false false) (f := fun r => decide (r.1.dsize.1 = 0))
      (by decide +kernel)
    exact ⟨m, w, h, of_decide_eq_true hl⟩

end Verif.Props
