/-
C41 and C83: warps can be undone before or after optimizing.
-/
import Verif.Props.Undo
import Verif.Props.Early

namespace Verif.Props

open Verif.Tree Verif.Helpers Verif.Tree.Node

variable {H : Heur}

/-- An optimized chain has the transform of the chain. -/
theorem early_leafTf {n n' : Node} (hH : Sharp H n) (he : Early H n n') (hb : Built n) {A : Affine}
    (hA : leafTf n = .ok A) {c : Chan} (hc : c ∈ den n) (hv : Visible c) : leafTf n' = .ok A := by
  have hw := hb.ok.1
  obtain ⟨g1, g2⟩ := (early_good (keepRules H (nameRules H) stable_chain) he ⟨hw, chain_of_leafTf n hA⟩).1
  obtain ⟨t, h1, h2⟩ := chain_tf n' g2 g1
  obtain ⟨u, h3, h4⟩ := chain_tf n (chain_of_leafTf n hA) hw
  rw [hA] at h3
  cases h3
  obtain ⟨i, hi⟩ := List.mem_iff_getElem?.1 hc
  obtain ⟨c', k1, -, -, k2, -⟩ := C83_sources hH he hb i c hi hv
  rw [h1, ← h2 c' (List.mem_of_getElem? k1), k2, h4 c hc]

/-- C41: optimizing an image, or images it is made of, before undoing its warps changes neither the returned warp nor
the size and channels of the result, nor where its channels come from.  (Images without overviews, with a channel that
shows something; sizes of the result that are not negative.) -/
theorem C41_optimized_before (D : Affine → Comps) {n n' : Node} (hH : Sharp H n) (hb : Built n) (ho : NoOv n)
    (he : Early H n n') {A : Affine} (hA : leafTf n = .ok A) (hD : Parts A.inv (D A.inv)) {c : Chan} (hc : c ∈ den n)
    (hv : Visible c) {rm rt : Option (List Key)} {ret ret' : Bool} {f f' : Nat} {m m' : Node} {w w' : Affine}
    (h : undoWarp H D f n rm rt false ret = .ok (m, w)) (h' : undoWarp H D f' n' rm rt false ret' = .ok (m', w'))
    (hz : Nonneg (autoDsize (some w) n.dsize)) :
    w' = w ∧ m'.dsize = m.dsize ∧ m'.channels = m.channels ∧ ∀ (i : Nat) (x : Chan) (p : ℚ × ℚ), (den n)[i]? = some x →
      x.dom p → 0 < (w.app p).1 → 0 < (w.app p).2 → ∃ y y' : Chan, (den m)[i]? = some y ∧
        (den m')[i]? = some y' ∧ y'.id = y.id ∧
        y'.ch = y.ch ∧ y'.qs = y.qs ∧ y'.tf = y.tf ∧ y.dom (w.app p) ∧ y'.dom (w.app p) := by
  have hA' := early_leafTf hH he hb hA hc hv
  have hd := leafTf_det n hb.ok.1 hA
  obtain ⟨keep, k1, k2, k3⟩ := undo_eq hA h
  obtain ⟨keep', l1, l2, l3⟩ := undo_eq hA' h'
  rw [k1] at l1
  cases l1
  have hww : w' = w := l2.trans k2.symm
  subst hww
  have hwd : w'.det ≠ 0 := by rw [k2]; exact without_det hD (Affine.det_inv A hd) keep
  obtain ⟨-, -, hsz, -, -⟩ := C83_announced_partial he hb ho
  have e : warp H.closeId n (some w') none .default false = .warp n w' (autoDsize (some w') n.dsize) .default := rfl
  have e' : warp H.closeId n' (some w') none .default false = .warp n' w' (autoDsize (some w') n.dsize) .default := by
    rw [← hsz]; rfl
  rw [e] at k3
  rw [e'] at l3
  have E1 : Early H (.warp n w' (autoDsize (some w') n.dsize) .default) m := .opt f k3 (.refl m)
  have E2 : Early H (.warp n w' (autoDsize (some w') n.dsize) .default) m' := .warp _ _ _ he (.opt f' l3 (.refl m'))
  have hbW : Built (.warp n w' (autoDsize (some w') n.dsize) .default) := .warp n w' none .default hb hwd hz
  have hHW : Sharp H (.warp n w' (autoDsize (some w') n.dsize) .default) := hH.warp w' _ (a := .default) rfl
  obtain ⟨-, -, a1, a2, -⟩ := C83_announced_partial E1 hbW ho
  obtain ⟨-, -, b1, b2, -⟩ := C83_announced_partial E2 hbW ho
  refine ⟨rfl, b1.trans a1.symm, b2.trans a2.symm, fun i x p hi hp h1 h2 => ?_⟩
  have hi' : (den (.warp n w' (autoDsize (some w') n.dsize) .default))[i]? =
      some (x.map w' (autoDsize (some w') n.dsize)) := by
    simp only [den, List.getElem?_map, hi, Option.map_some]
  have hdom : (x.map w' (autoDsize (some w') n.dsize)).dom (w'.app p) := by
    obtain ⟨j1, j2⟩ := app_lt_auto w' hwd n.dsize p (den_in n hb.ok.1 x (List.mem_of_getElem? hi) p hp)
    exact ⟨⟨h1, j1, h2, j2⟩, by rw [Affine.inv_app_app w' hwd]; exact hp⟩
  obtain ⟨y, y1, y2, y3, y4, y5, y6⟩ := C83_sources hHW E1 hbW i _ hi' ⟨_, hdom⟩
  obtain ⟨z, z1, z2, z3, z4, z5, z6⟩ := C83_sources hHW E2 hbW i _ hi' ⟨_, hdom⟩
  exact ⟨y, z, y1, z1, z2.trans y2.symm, z3.trans y3.symm, z5.trans y5.symm, z4.trans y4.symm, y6 _ hdom, z6 _ hdom⟩

/-- The part of a scaled and moved image, optimized before the scale is undone. -/
example : ∃ n' m w m' w', opt .code 20 undoDemo = .ok n' ∧
    undoWarp .code (fun _ => undoDemoParts) 20 undoDemo (some [.scale]) none false true = .ok (m, w) ∧
    undoWarp .code (fun _ => undoDemoParts) 20 n' (some [.scale]) none false true = .ok (m', w') ∧
    w' = w ∧ m'.dsize = m.dsize ∧ m.dsize = (13, 24) := by
  obtain ⟨n', h1, h2⟩ := holds_ok (x := opt .code 20 undoDemo) (f := fun n' =>
    holds (undoWarp .code (fun _ => undoDemoParts) 20 n' (some [.scale]) none false true) fun _ => true)
      (by decide +kernel)
  obtain ⟨⟨m', w'⟩, h3, -⟩ := holds_ok h2
  obtain ⟨⟨m, w⟩, h5, h6⟩ := holds_ok (x := undoWarp .code (fun _ => undoDemoParts) 20 undoDemo (some [.scale]) none
    false true) (f := fun r => decide (r.1.dsize = (13, 24) ∧ r.2 = ⟨1 / 2, 0, 0, 0, 1 / 2, 0⟩)) (by decide +kernel)
  obtain ⟨h6, h7⟩ := of_decide_eq_true h6
  simp only at h6 h7
  have hv : ∃ c ∈ den undoDemo, c.dom (20, 30) := by
    refine ⟨_, List.mem_singleton.2 rfl, ?_⟩
    simp [den, undoLeaf, pick, Chan.map, Chan.leaf, In, Affine.trans, Affine.inv, Affine.det, Affine.app,
      mkWarp]
    norm_num
  obtain ⟨c, hc, hv⟩ := hv
  obtain ⟨k1, k2, -⟩ := C41_optimized_before (fun _ => undoDemoParts) (n := undoDemo)
    (sharp_code (.inl rfl) ⟨rfl, trivial⟩)
    undoDemo_built (.inl rfl) (.opt 20 h1 (.refl n')) undoDemo_tf undoDemo_parts hc ⟨_, hv⟩ h5 h3
    (by rw [h7]; exact ⟨by decide +kernel, by decide +kernel⟩)
  exact ⟨n', m, w, m', w', h1, h5, h3, k1, k2, h6⟩

end Verif.Props
