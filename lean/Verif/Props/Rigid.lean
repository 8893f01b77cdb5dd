/-
C37 for images that are only moved, turned and mirrored: `optimize` ends, whatever overviews are taken and
however many the files have.
-/
import Verif.Terminate
import Verif.NameRules
import Verif.Built
import Verif.Props.Total

namespace Verif
namespace Props

open Tree Tree.Node Helpers

/-- Distances are kept: the columns of the linear part have length one and are orthogonal. -/
def Orth (m : Affine) : Prop :=
  m.a ^ 2 + m.c ^ 2 = 1 ∧ m.b ^ 2 + m.d ^ 2 = 1 ∧ m.a * m.b + m.c * m.d = 0

theorem Orth.mul {m n : Affine} (hm : Orth m) (hn : Orth n) : Orth (m * n) := by
  obtain ⟨h1, h2, h3⟩ := hm
  obtain ⟨k1, k2, k3⟩ := hn
  simp only [Orth, Affine.mul_def, Affine.mul]
  refine ⟨?_, ?_, ?_⟩
  · linear_combination n.a ^ 2 * h1 + n.c ^ 2 * h2 + 2 * n.a * n.c * h3 + k1
  · linear_combination n.b ^ 2 * h1 + n.d ^ 2 * h2 + 2 * n.b * n.d * h3 + k2
  · linear_combination n.a * n.b * h1 + n.c * n.d * h2 + (n.a * n.d + n.b * n.c) * h3 + k3

theorem Orth.of_lin {m n : Affine} (h : SameLin m n) (hn : Orth n) : Orth m := by
  obtain ⟨h1, h2, h3, h4⟩ := h
  simp only [Orth, h1, h2, h3, h4]
  exact hn

theorem orth_trans (x y : ℚ) : Orth (.trans x y) := by simp [Orth, Affine.trans]

/-- Such a warp is not split. -/
theorem Orth.canSplit {m : Affine} (h : Orth m) : Heur.code.canSplit m = false := by
  have : ¬ (m.a ^ 2 + m.c ^ 2 ≤ (1 / 2) ^ 2) := by rw [h.1]; norm_num
  simp only [Heur.code, scalesLe, decide_eq_false this, Bool.false_and]

/-- Such a warp does not absorb overviews. -/
theorem Orth.big {m : Affine} (h : Orth m) : Heur.code.big m = false := by
  have hd : m.det ^ 2 = 1 := by
    simp only [Affine.det]
    linear_combination (m.b ^ 2 + m.d ^ 2) * h.1 + h.2.1 - (m.a * m.b + m.c * m.d) * h.2.2
  have h1 : m.a ^ 2 + m.c ^ 2 < (2 - 1 / 100000000) ^ 2 := by rw [h.1]; norm_num
  have h2 : m.det ^ 2 < (2 - 1 / 100000000) ^ 2 * (m.a ^ 2 + m.c ^ 2) := by rw [h.1, hd]; norm_num
  simp only [Heur.code, scalesLt, decide_eq_true h1, Bool.true_and, Bool.not_eq_false']
  exact decide_eq_true (.inr h2)

mutual
/-- All warps keep distances. -/
def Rigid : Node → Prop
  | .leaf _ => True
  | .concat ps _ => RigidL ps
  | .warp s tf _ _ => Orth tf ∧ Rigid s
  | .crop s _ _ _ _ _ => Rigid s
  | .overview s _ _ => Rigid s
  | .dequant s _ _ => Rigid s
def RigidL : List Node → Prop
  | [] => True
  | p :: ps => Rigid p ∧ RigidL ps
end

theorem rigidL_iff (ps : List Node) : RigidL ps ↔ ∀ p ∈ ps, Rigid p := by
  induction ps with
  | nil => simp [RigidL]
  | cons p ps ih => simp [RigidL, ih]

theorem rigid_sub {n x : Node} (h : Rigid n) (hx : subOf n = .ok (some x)) : Rigid x := by
  cases n with
  | leaf l => simp [subOf] at hx
  | concat _ _ => simp [subOf] at hx
  | warp s _ _ _ => cases hx; exact h.2
  | crop s _ _ _ _ _ => cases hx; exact h
  | overview s _ _ => cases hx; exact h
  | dequant s _ _ => cases hx; exact h

theorem rigid_take : TakeStable Rigid where
  parts := fun h p hp => (rigidL_iff _).1 h p hp
  concat := by
    intro ps qs d c _ hq hc
    obtain ⟨d', rfl, _, _⟩ := mkConcat_ok hc
    exact (rigidL_iff _).2 fun q hq' => (hq q hq').1
  nan := fun _ => trivial
  crop := by
    intro p idxs t _ hp _ h
    rw [mkCrop_none_form h]; exact hp

theorem rigid_push {n c : Node} {ps : List Node} {d : Int × Int} (hn : Rigid n)
    (hsub : subOf n = .ok (some (.concat ps d))) (h : pushUnder n ps = .ok (some c)) : Rigid c := by
  unfold pushUnder at h
  split at h
  · cases h
  · rename_i qs hqs
    split at h
    · rename_i c' hc
      cases h
      obtain ⟨d', rfl, _, _⟩ := mkConcat_ok hc
      refine (rigidL_iff _).2 fun q hq => ?_
      obtain ⟨p, hp, e⟩ := forall₂_mem_right (mapAll_ok hqs) hq
      have hpr : Rigid p := (rigidL_iff _).1 (rigid_sub hn hsub) p hp
      cases n with
      | leaf l => simp [subOf] at hsub
      | concat _ _ => simp [subOf] at hsub
      | warp s tf dw a => cases hsub; cases e; exact ⟨hn.1, hpr⟩
      | crop s y0 y1 x0 x1 ci =>
        cases hsub
        simp only [reapply] at e
        rw [mkCrop_ints e]; exact hpr
      | overview s k dw => cases hsub; cases e; exact hpr
      | dequant s k dw => cases hsub; cases e; exact hpr
    · cases h
    · cases h

/-- Warps that keep distances are neither split nor enlarged. -/
structure Calmly (H : Heur) : Prop where
  canSplit : ∀ m, Orth m → H.canSplit m = false
  big : ∀ m, Orth m → H.big m = false

theorem calmly_code : Calmly Heur.code := ⟨fun _ h => h.canSplit, fun _ h => h.big⟩
theorem calmly_exact : Calmly Heur.exact := ⟨fun _ h => h.canSplit, fun _ h => h.big⟩

theorem Calmly.split {H : Heur} (hH : Calmly H) {tf : Affine} (h : Orth tf) {num k : Int} (hk : SplitLevel H tf num k) :
    False := by
  have := hk.can
  rw [hH.canSplit _ h] at this
  cases this

theorem Calmly.absorb {H : Heur} (hH : Calmly H) {tf : Affine} (h : Orth tf) {s r : Node} {d : Int × Int} {a : Algo}
    (hr : Tree.absorb H s tf d a = .ok r) : r = .warp s tf d a := by
  unfold Tree.absorb at hr
  rw [hH.big _ h] at hr
  simpa using hr.symm

/-- The images considered here. -/
def Moved (n : Node) : Prop := WF n ∧ Rigid n

theorem rigidRules (H : Heur) (hH : Calmly H) : Rules H Moved Names where
  refl := (nameRules H).refl
  trans := (nameRules H).trans
  sub := fun h hx => ⟨(nameRules H).sub h.1 hx, rigid_sub h.2 hx⟩
  parts := fun h p hp => ⟨(nameRules H).parts h.1 p hp, (rigidL_iff _).1 h.2 p hp⟩
  same := fun h => (nameRules H).same h.1
  nan := fun h => (nameRules H).nan h.1
  cong := by
    intro n x x' hn hx hx' hs
    obtain ⟨h1, h2⟩ := (nameRules H).cong hn.1 hx hx'.1 hs
    refine ⟨⟨h1, ?_⟩, h2⟩
    have h := hn.2
    cases n with
    | leaf l => simp [subOf] at hx
    | concat _ _ => simp [subOf] at hx
    | warp s _ _ _ => exact ⟨h.1, hx'.2⟩
    | crop s _ _ _ _ _ => exact hx'.2
    | overview s _ _ => exact hx'.2
    | dequant s _ _ => exact hx'.2
  concat := by
    intro ps d qs c hn hf hc
    obtain ⟨h1, h2⟩ := (nameRules H).concat hn.1 (hf.imp fun _ _ h => ⟨h.1.1, h.2⟩) hc
    obtain ⟨d', rfl, _, _⟩ := mkConcat_ok hc
    refine ⟨⟨h1, (rigidL_iff _).2 fun q hq => ?_⟩, h2⟩
    obtain ⟨p, _, e⟩ := forall₂_mem_right hf hq
    exact e.1.2
  push := fun hn hsub hsel h =>
    ⟨⟨((nameRules H).push hn.1 hsub hsel h).1, rigid_push hn.2 hsub h⟩, ((nameRules H).push hn.1 hsub hsel h).2⟩
  fuseWarps := fun h => ⟨⟨((nameRules H).fuseWarps h.1).1, h.2.1.mul h.2.2.1, h.2.2.2⟩, ((nameRules H).fuseWarps h.1).2⟩
  idWarp := fun h => (nameRules H).idWarp h.1
  nanWarp := fun h hn => ⟨⟨((nameRules H).nanWarp h.1 hn).1, trivial⟩, ((nameRules H).nanWarp h.1 hn).2⟩
  splitWarp := fun h _ _ hk => (hH.split h.2.1 hk).elim
  splitOv := fun h _ _ hk => (hH.split h.2.1 hk).elim
  splitCrop := fun h _ _ hk => (hH.split h.2.1 hk).elim
  absorb := by
    intro s tf d a num r h _ hr
    rw [hH.absorb h.2.1 hr]
    exact ⟨h, (nameRules H).refl _⟩
  nanCrop := by
    intro l y0 y1 x0 x1 c r h hn hr
    obtain ⟨h1, h2⟩ := (nameRules H).nanCrop h.1 hn hr
    obtain ⟨_, d', names, rfl⟩ := nanCrop_form hr
    exact ⟨⟨h1, trivial⟩, h2⟩
  fuseCrops := by
    intro s iy0 iy1 ix0 ix1 ic y0 y1 x0 x1 c r h hr
    obtain ⟨h1, h2⟩ := (nameRules H).fuseCrops h.1 hr
    refine ⟨⟨h1, ?_⟩, h2⟩
    simp only [fuseCrops] at hr
    split at hr
    · cases hr
    · rw [mkCrop_ints hr]; exact h.2
  warpAfterCrop := by
    intro s tf d a y0 y1 x0 x1 c inner tf' h hr
    obtain ⟨h1, h2⟩ := (nameRules H).warpAfterCrop h.1 hr
    obtain ⟨hl, _, _, _, _, rfl⟩ := warpAfterCrop_form hr
    exact ⟨⟨h1, h.2.1.of_lin hl, h.2.2⟩, h2⟩
  dequantCrop := fun h => ⟨⟨((nameRules H).dequantCrop h.1).1, h.2⟩, ((nameRules H).dequantCrop h.1).2⟩
  take := by
    intro ps d y0 y1 x0 x1 c t h ht
    obtain ⟨h1, h2⟩ := (nameRules H).take h.1 ht
    refine ⟨⟨h1, takeIdx_stable rigid_take _ h.1.1 h.2 c t h.1.2.2.2 ht⟩, ?_⟩
    intro t' cr ht' hs hcr
    obtain ⟨h3, h4⟩ := h2 t' cr ht'.1 hs hcr
    refine ⟨⟨h3, ?_⟩, h4⟩
    rw [mkCrop_ints hcr]; exact ht'.2
  renorm := by
    intro ps d y0 y1 x0 x1 cr h hcr
    obtain ⟨h1, h2⟩ := (nameRules H).renorm h.1 hcr
    refine ⟨⟨h1, ?_⟩, h2⟩
    rw [mkCrop_ints hcr]; exact h.2
  cropAfterOverview := by
    intro s y0 y1 x0 x1 c k d r h hr
    obtain ⟨h1, h2⟩ := (nameRules H).cropAfterOverview h.1 hr
    refine ⟨⟨h1, ?_⟩, h2⟩
    obtain ⟨a, b, e, f, rfl | ⟨x, y, dw, al, rfl⟩⟩ := cropAfterOverview_form hr
    · exact h.2
    · exact ⟨orth_trans _ _, h.2⟩
  warpAfterOverview := fun h =>
    ⟨⟨((nameRules H).warpAfterOverview h.1).1, h.2.1.of_lin (warpAfterOverview_lin _ _), h.2.2⟩,
      ((nameRules H).warpAfterOverview h.1).2⟩
  dequantOverview := fun h => ⟨⟨((nameRules H).dequantOverview h.1).1, h.2⟩, ((nameRules H).dequantOverview h.1).2⟩
  ov0 := fun h => (nameRules H).ov0 h.1
  fuseOv := fun h => ⟨⟨((nameRules H).fuseOv h.1).1, h.2⟩, ((nameRules H).fuseOv h.1).2⟩
  dequantWarp := fun h => ⟨⟨((nameRules H).dequantWarp h.1).1, h.2.1, h.2.2⟩, ((nameRules H).dequantWarp h.1).2⟩

/-- The measure of `Terminate.lean` decreases. -/
theorem rigidShrinks (H : Heur) (hH : Calmly H) : Shrinks H Moved mu :=
  muShrinks H (fun h => h.1) (fun h _ _ hk => (hH.split h.2.1 hk).elim) (fun h _ _ hk => (hH.split h.2.1 hk).elim)
    (fun h _ _ hk => (hH.split h.2.1 hk).elim) fun h _ hr => by rw [hH.absorb h.2.1 hr]

/-- C37, the end of `optimize` on images that are moved, turned (by any angle) and mirrored, cropped, dequantized
and concatenated, with overviews taken anywhere, of files with any number of overviews: there is one result, an
image or an exception of the code, and all large enough stacks reach it.  Together with
`C37_terminates_partial` this leaves out only images that are resized or sheared and have overviews that do not
fit. -/
theorem C37_rigid_terminates_partial {n : Node} (hb : Built n) (hr : Rigid n) :
    ∃! r : Py Node, r ≠ .error .recursion ∧ ∃ F, ∀ f, F ≤ f → opt Heur.code f n = r := by
  obtain ⟨r, h, _⟩ := (rigidShrinks Heur.code calmly_code).ends (rigidRules Heur.code calmly_code) ⟨hb.ok.1, hr⟩
  exact ⟨r, h, fun r' h' => Ends.det h' h⟩

/-- The first overview of a picture without overviews, turned by an angle with cosine 3/5. -/
def tilted : Node := mkWarp (mkOverview (.leaf { pyramid with overviews := some 0 }) 1) ⟨3 / 5, -4 / 5, 4, 4 / 5, 3 / 5, 0⟩
  (some (5, 5)) .default

/-- The first overview of a part of it. -/
def tiltedPart : Node := mkOverview (.crop tilted 1 4 1 4 none) 1

example : Built tiltedPart ∧ Rigid tiltedPart ∧ ¬ Calm True 0 0 tiltedPart ∧ ∃ m, opt Heur.code 40 tiltedPart = .ok m ∧
    paths m = [[Step.warp false, Step.crop false, Step.overview]] := by
  have h0 : Built tilted := .warp (mkOverview (.leaf { pyramid with overviews := some 0 }) 1)
    ⟨3 / 5, -4 / 5, 4, 4 / 5, 3 / 5, 0⟩ (some (5, 5)) .default (.overview _ 1 (picture_built (some 0) 1))
    (by decide +kernel) ⟨by decide, by decide⟩
  refine ⟨.overview _ 1 (.crop tilted _ (some ((some 1, some 4), (some 1, some 4))) none h0 trivial rfl),
    ⟨⟨by norm_num, by norm_num, by norm_num⟩, trivial⟩, ?_, ?_⟩
  · intro h
    simp only [tiltedPart, tilted, mkOverview, mkWarp, Calm] at h
    rcases h.2.2 with h | h | h
    · simp at h
    · omega
    · have := h.1.2.2.1
      norm_num at this
  · obtain ⟨m, h1, h2⟩ := holds_ok (x := opt Heur.code 40 tiltedPart)
      (f := fun m => decide (paths m = [[Step.warp false, Step.crop false, Step.overview]])) (by decide +kernel)
    exact ⟨m, h1, of_decide_eq_true h2⟩

end Props
end Verif
