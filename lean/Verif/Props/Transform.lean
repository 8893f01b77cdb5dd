/-
C31: `get_transform_from`.
-/
import Verif.Props.Walk
import Verif.Built

namespace Verif.Props

open Tree Helpers Node

/-! #### transforms of paths -/

mutual
/-- For every path from the root to a leaf the leaf and the transform from the leaf to the root, the parts
of concats from the last to the first. -/
def pathTfs : Node → List (Nat × Affine)
  | .leaf l => [(l.id, .id)]
  | .concat ps _ => pathTfsL ps
  | .warp s tf _ _ => (pathTfs s).map fun e => (e.1, tf * e.2)
  | .crop s y0 _ x0 _ _ => (pathTfs s).map fun e => (e.1, Affine.trans (-x0) (-y0) * e.2)
  | .overview s k _ => (pathTfs s).map fun e => (e.1, Affine.scale ((2 : ℚ) ^ k)⁻¹ * e.2)
  | .dequant s _ _ => pathTfs s
def pathTfsL : List Node → List (Nat × Affine)
  | [] => []
  | p :: ps => pathTfsL ps ++ pathTfs p
end

/-! #### the loop -/

mutual
/-- The leafs and the operations on the paths to them. -/
def pathParts : Node → List (Node × Node)
  | .leaf l => [(.leaf l, .leaf l)]
  | .concat ps _ => pathPartsL ps
  | .warp s tf d a => (pathParts s).map fun e => (e.1, .warp e.2 tf d a)
  | .crop s y0 y1 x0 x1 c => (pathParts s).map fun e => (e.1, .crop e.2 y0 y1 x0 x1 c)
  | .overview s k d => (pathParts s).map fun e => (e.1, .overview e.2 k d)
  | .dequant s q d => (pathParts s).map fun e => (e.1, .dequant e.2 q d)
def pathPartsL : List Node → List (Node × Node)
  | [] => []
  | p :: ps => pathPartsL ps ++ pathParts p
end

/-- Putting operations on top of an image, without concats. -/
def wrap (x : Node) : List Node → Node
  | [] => x
  | .concat _ _ :: rest => wrap x rest
  | part :: rest => wrap (setSub part x) rest

theorem contract_some (rest : List Node) (x : Node) : contract (some x) rest = .ok (some (wrap x rest)) := by
  induction rest generalizing x with
  | nil => rfl
  | cons p rest ih => cases p <;> simp only [contract, wrap, ih]

theorem contract_leaf (l : Leaf) (rest : List Node) :
    contract none (.leaf l :: rest) = .ok (some (wrap (.leaf l) rest)) := by
  simp only [contract, contract_some]

/-- Appending to what the rest of the loop gives. -/
def after (xs : List (Node × Node)) : Py (List (Node × Node)) → Py (List (Node × Node))
  | .error e => .error e
  | .ok r => .ok (xs ++ r)

theorem after_after (xs ys : List (Node × Node)) (r : Py (List (Node × Node))) :
    after xs (after ys r) = after (xs ++ ys) r := by
  cases r <;> simp [after]

theorem leafPaths_loop : ∀ (n : Node), WF n → ∀ (above : List Node) (st : List (Node × List Node)),
    leafPathsLoop ((n, above) :: st) =
      after ((pathParts n).map fun e => (e.1, wrap e.2 above)) (leafPathsLoop st) := by
  apply childInd' (P := fun n => WF n → ∀ (above : List Node) (st : List (Node × List Node)),
    leafPathsLoop ((n, above) :: st) =
      after ((pathParts n).map fun e => (e.1, wrap e.2 above)) (leafPathsLoop st))
  intro n ih hn above st
  have one : ∀ s, children n = [s] → WF s → (∀ x, wrap x (n :: above) = wrap (setSub n x) above) →
      leafPathsLoop ((n, above) :: st) =
        after ((pathParts s).map fun e => (e.1, wrap (setSub n e.2) above)) (leafPathsLoop st) := by
    intro s hs hw hx
    rw [leafPathsLoop, hs]
    simp only [List.isEmpty_cons, Bool.false_eq_true, if_false, List.map_cons, List.map_nil, List.reverse_cons,
      List.reverse_nil, List.nil_append, List.singleton_append]
    rw [ih s (by rw [hs]; simp) hw (n :: above) st]
    simp only [hx]
  cases n with
  | leaf l =>
    rw [leafPathsLoop]
    simp only [children, List.isEmpty_nil, if_true, contract_leaf, pathParts, List.map_cons, List.map_nil]
    cases leafPathsLoop st <;> rfl
  | concat ps d =>
    rw [leafPathsLoop]
    have he : (children (.concat ps d)).isEmpty = false := by simp [children, hn.1]
    rw [he]
    simp only [Bool.false_eq_true, if_false, children, pathParts]
    have key : ∀ (qs : List Node), (∀ q ∈ qs, q ∈ ps) → ∀ st,
        leafPathsLoop ((qs.map fun c => (c, Node.concat ps d :: above)).reverse ++ st) =
          after ((pathPartsL qs).map fun e => (e.1, wrap e.2 above)) (leafPathsLoop st) := by
      intro qs
      induction qs with
      | nil =>
        intro _ st
        simp only [List.map_nil, List.reverse_nil, List.nil_append, pathPartsL]
        cases leafPathsLoop st <;> rfl
      | cons q qs ih2 =>
        intro hq st
        rw [List.map_cons, List.reverse_cons, List.append_assoc, List.singleton_append,
          ih2 (fun x hx => hq x (List.mem_cons_of_mem _ hx)),
          ih q (hq q (List.mem_cons_self ..)) ((WFL_iff _ _).1 hn.2 q (hq q (List.mem_cons_self ..))).1,
          after_after, pathPartsL, List.map_append]
        rfl
    exact key ps (fun _ h => h) st
  | warp s tf d a =>
    rw [one s rfl hn.1 (fun _ => rfl), pathParts, List.map_map]; rfl
  | crop s y0 y1 x0 x1 c =>
    rw [one s rfl hn.1 (fun _ => rfl), pathParts, List.map_map]; rfl
  | overview s k d =>
    rw [one s rfl hn (fun _ => rfl), pathParts, List.map_map]; rfl
  | dequant s q d =>
    rw [one s rfl hn (fun _ => rfl), pathParts, List.map_map]; rfl

theorem leafPaths_eq {n : Node} (hn : WF n) : leafPaths n = .ok (pathParts n) := by
  rw [leafPaths, leafPaths_loop n hn, leafPathsLoop]
  simp [after, wrap]

/-- The transform of a path and the one computed for it. -/
def Agrees (e : Node × Node) (f : Nat × Affine) : Prop := leafKey e.1 = some f.1 ∧ leafTf e.2 = .ok f.2

mutual
theorem parts_tfs : ∀ n : Node, List.Forall₂ Agrees (pathParts n) (pathTfs n)
  | .leaf l => .cons ⟨rfl, rfl⟩ .nil
  | .concat ps d => parts_tfsL ps
  | .warp s tf d a => by
    rw [pathParts, pathTfs, List.forall₂_map_left_iff, List.forall₂_map_right_iff]
    exact (parts_tfs s).imp fun e f h => ⟨h.1, by simp only [leafTf, h.2, tfSub]⟩
  | .crop s y0 y1 x0 x1 c => by
    rw [pathParts, pathTfs, List.forall₂_map_left_iff, List.forall₂_map_right_iff]
    exact (parts_tfs s).imp fun e f h => ⟨h.1, by simp only [leafTf, h.2, tfSub]⟩
  | .overview s k d => by
    rw [pathParts, pathTfs, List.forall₂_map_left_iff, List.forall₂_map_right_iff]
    exact (parts_tfs s).imp fun e f h => ⟨h.1, by simp only [leafTf, h.2, tfSub]⟩
  | .dequant s q d => by
    rw [pathParts, pathTfs, List.forall₂_map_left_iff]
    exact (parts_tfs s).imp fun e f h => ⟨h.1, by simp only [leafTf, h.2, tfSub, Affine.id_mul]⟩
theorem parts_tfsL : ∀ ps : List Node, List.Forall₂ Agrees (pathPartsL ps) (pathTfsL ps)
  | [] => .nil
  | p :: ps => by
    rw [pathPartsL, pathTfsL]
    exact List.rel_append (parts_tfsL ps) (parts_tfs p)
end

/-! #### the chosen path -/

/-- The transform of the last path to a leaf. -/
def lastTf (es : List (Nat × Affine)) (k : Nat) : Option Affine :=
  (es.reverse.find? fun e => decide (e.1 = k)).map (·.2)

/-- The first leaf of the first list that is also in the second one. -/
def firstCommon (ds ss : List (Nat × Affine)) : Option Nat :=
  (ds.map (·.1)).find? fun k => decide (k ∈ ss.map (·.1))

theorem keys_eq {ps : List (Node × Node)} {es : List (Nat × Affine)} (h : List.Forall₂ Agrees ps es) :
    (ps.map fun e => leafKey e.1) = (es.map (·.1)).map some := by
  induction h with
  | nil => rfl
  | cons h _ ih => simp [ih, h.1]

theorem find_agrees {ps : List (Node × Node)} {es : List (Nat × Affine)} (h : List.Forall₂ Agrees ps es) (k : Nat) :
    (∀ t, (es.find? fun e => decide (e.1 = k)).map (·.2) = some t →
      ∃ x, (ps.find? fun e => decide (leafKey e.1 = some k)).map (·.2) = some x ∧ leafTf x = .ok t) := by
  intro t ht
  induction h with
  | nil => simp at ht
  | @cons e f ps es h _ ih =>
    by_cases hk : f.1 = k
    · rw [List.find?_cons_of_pos (by simpa using hk)] at ht
      simp only [Option.map_some, Option.some.injEq] at ht
      refine ⟨e.2, ?_, by rw [← ht]; exact h.2⟩
      rw [List.find?_cons_of_pos (by simp [h.1, hk])]
      rfl
    · rw [List.find?_cons_of_neg (by simpa using hk)] at ht
      obtain ⟨x, h1, h2⟩ := ih ht
      exact ⟨x, by rw [List.find?_cons_of_neg (by simp [h.1, hk])]; exact h1, h2⟩

theorem lookup_agrees {ps : List (Node × Node)} {es : List (Nat × Affine)} (h : List.Forall₂ Agrees ps es)
    {k : Nat} {t : Affine} (ht : lastTf es k = some t) : ∃ x, lookup ps (some k) = some x ∧ leafTf x = .ok t :=
  find_agrees (List.rel_reverse h) k t ht

theorem lastTf_of_mem {es : List (Nat × Affine)} {k : Nat} (h : k ∈ es.map (·.1)) :
    ∃ t, lastTf es k = some t ∧ (k, t) ∈ es := by
  obtain ⟨e, he, rfl⟩ := List.mem_map.1 h
  cases hf : es.reverse.find? (fun x => decide (x.1 = e.1)) with
  | none =>
    rw [List.find?_eq_none] at hf
    exact absurd (by simp) (hf e (List.mem_reverse.2 he))
  | some f =>
    refine ⟨f.2, by rw [lastTf, hf]; rfl, ?_⟩
    have h1 := List.find?_some hf
    have h2 := List.mem_reverse.1 (List.mem_of_find?_eq_some hf)
    simp only [decide_eq_true_eq] at h1
    rw [← h1]
    exact h2

theorem fromPaths_eq {dst src : Node} (hd : WF dst) (hs : WF src) {k : Nat}
    (hk : firstCommon (pathTfs dst) (pathTfs src) = some k) :
    ∃ d s, lastTf (pathTfs dst) k = some d ∧ lastTf (pathTfs src) k = some s ∧
      transformFromPaths dst src = .ok (d * s.inv) := by
  have h1 := List.mem_of_find?_eq_some hk
  have h2 := List.find?_some hk
  simp only [decide_eq_true_eq] at h2
  obtain ⟨d, hd1, _⟩ := lastTf_of_mem h1
  obtain ⟨s, hs1, _⟩ := lastTf_of_mem h2
  refine ⟨d, s, hd1, hs1, ?_⟩
  obtain ⟨x, hx1, hx2⟩ := lookup_agrees (parts_tfs dst) hd1
  obtain ⟨y, hy1, hy2⟩ := lookup_agrees (parts_tfs src) hs1
  have hfind : ((pathParts dst).map fun e => leafKey e.1).find?
      (fun k => decide (k ∈ (pathParts src).map fun e => leafKey e.1)) = some (some k) := by
    rw [keys_eq (parts_tfs dst), keys_eq (parts_tfs src), List.find?_map]
    rw [firstCommon] at hk
    have : ((fun k => decide (k ∈ List.map some (List.map (fun x => x.1) (pathTfs src)))) ∘ some) =
        (fun k : Nat => decide (k ∈ (pathTfs src).map (·.1))) := by
      funext j
      simp [Function.comp_def]
    rw [this, hk]
    rfl
  rw [transformFromPaths, leafPaths_eq hd, leafPaths_eq hs]
  simp only [hfind, hx1, hy1, hx2, hy2]

theorem leafTf_ok : ∀ n : Node, (∃ i t, leafTf n = .ok t ∧ pathTfs n = [(i, t)]) ∨ leafTf n = .error .attributeError := by
  apply childInd'
  intro n ih
  cases n with
  | leaf l => exact .inl ⟨l.id, .id, rfl, rfl⟩
  | concat ps d => exact .inr rfl
  | warp s tf d a =>
    rcases ih s (by simp [children]) with ⟨i, t, h1, h2⟩ | h
    · exact .inl ⟨i, tf * t, by simp [leafTf, h1, tfSub], by simp [pathTfs, h2]⟩
    · exact .inr (by simp [leafTf, h])
  | crop s y0 y1 x0 x1 c =>
    rcases ih s (by simp [children]) with ⟨i, t, h1, h2⟩ | h
    · exact .inl ⟨i, Affine.trans (-x0) (-y0) * t, by simp only [leafTf, h1, tfSub], by simp [pathTfs, h2]⟩
    · exact .inr (by simp [leafTf, h])
  | overview s k d =>
    rcases ih s (by simp [children]) with ⟨i, t, h1, h2⟩ | h
    · exact .inl ⟨i, Affine.scale ((2 : ℚ) ^ k)⁻¹ * t, by simp only [leafTf, h1, tfSub], by simp [pathTfs, h2]⟩
    · exact .inr (by simp [leafTf, h])
  | dequant s q d =>
    rcases ih s (by simp [children]) with ⟨i, t, h1, h2⟩ | h
    · exact .inl ⟨i, t, by simp [leafTf, h1, tfSub], by simp [pathTfs, h2]⟩
    · exact .inr (by simp [leafTf, h])

/-- What `get_transform_from` computes if there is a common leaf. -/
theorem from_eq {dst src : Node} (hd : WF dst) (hs : WF src) {k : Nat}
    (hk : firstCommon (pathTfs dst) (pathTfs src) = some k) :
    ∃ d s, lastTf (pathTfs dst) k = some d ∧ lastTf (pathTfs src) k = some s ∧
      transformFrom dst src = .ok (d * s.inv) := by
  obtain ⟨d, s, h1, h2, h3⟩ := fromPaths_eq hd hs hk
  refine ⟨d, s, h1, h2, ?_⟩
  unfold transformFrom
  rcases leafTf_ok src with ⟨i, t, e1, e2⟩ | e1
  · rcases leafTf_ok dst with ⟨j, u, f1, f2⟩ | f1
    · simp only [e1, f1]
      have m1 := List.mem_of_find?_eq_some hk
      have m2 := List.find?_some hk
      rw [f2] at m1
      rw [e2] at m2
      simp only [List.map_cons, List.map_nil, List.mem_singleton, decide_eq_true_eq] at m1 m2
      rw [f2, lastTf] at h1
      rw [e2, lastTf] at h2
      simp [← m1] at h1
      simp [← m2] at h2
      rw [h1, h2]
    · simp only [e1, f1, h3]
  · simp only [e1, h3]

/-! ### C31 -/

mutual
theorem pathTfs_det : ∀ n : Node, WF n → ∀ e ∈ pathTfs n, e.2.det ≠ 0
  | .leaf l, _, e, h => by
    rw [pathTfs, List.mem_singleton] at h
    rw [h]
    simp
  | .concat ps d, hn, e, h => pathTfsL_det ps d hn.2 e h
  | .warp s tf d a, hn, e, h => by
    rw [pathTfs] at h
    obtain ⟨f, hf, rfl⟩ := List.mem_map.1 h
    rw [Affine.det_mul]
    exact mul_ne_zero hn.2 (pathTfs_det s hn.1 f hf)
  | .crop s y0 y1 x0 x1 c, hn, e, h => by
    rw [pathTfs] at h
    obtain ⟨f, hf, rfl⟩ := List.mem_map.1 h
    rw [Affine.det_mul]
    exact mul_ne_zero (by simp) (pathTfs_det s hn.1 f hf)
  | .overview s k d, hn, e, h => by
    rw [pathTfs] at h
    obtain ⟨f, hf, rfl⟩ := List.mem_map.1 h
    rw [Affine.det_mul]
    refine mul_ne_zero ?_ (pathTfs_det s hn f hf)
    rw [Affine.det_scale]
    have : (2 : ℚ) ^ k ≠ 0 := zpow_ne_zero _ (by norm_num)
    positivity
  | .dequant s q d, hn, e, h => pathTfs_det s hn e h
theorem pathTfsL_det : ∀ (ps : List Node) (d : Int × Int), WFL d ps → ∀ e ∈ pathTfsL ps, e.2.det ≠ 0
  | [], _, _, e, h => by cases h
  | p :: ps, d, hn, e, h => by
    rw [pathTfsL, List.mem_append] at h
    rcases h with h | h
    · exact pathTfsL_det ps d hn.2.2 e h
    · exact pathTfs_det p hn.1 e h
end

theorem pathTfs_ne_nil : ∀ n : Node, WF n → pathTfs n ≠ [] := by
  apply childInd' (P := fun n => WF n → pathTfs n ≠ [])
  intro n ih hn
  cases n with
  | leaf l => simp [pathTfs]
  | concat ps d =>
    cases ps with
    | nil => exact absurd rfl hn.1
    | cons p ps =>
      rw [pathTfs, pathTfsL]
      have := ih p (by simp [children]) hn.2.1
      simp [this]
  | warp s tf d a => simpa [pathTfs] using ih s (by simp [children]) hn.1
  | crop s y0 y1 x0 x1 c => simpa [pathTfs] using ih s (by simp [children]) hn.1
  | overview s k d => simpa [pathTfs] using ih s (by simp [children]) hn
  | dequant s q d => simpa [pathTfs] using ih s (by simp [children]) hn

theorem lastTf_mem {es : List (Nat × Affine)} {k : Nat} {t : Affine} (h : lastTf es k = some t) : (k, t) ∈ es := by
  have : k ∈ es.map (·.1) := by
    rw [lastTf] at h
    obtain ⟨e, h1, h2⟩ := Option.map_eq_some_iff.1 h
    have h3 := List.find?_some h1
    have h4 := List.mem_reverse.1 (List.mem_of_find?_eq_some h1)
    simp only [decide_eq_true_eq] at h3
    exact List.mem_map.2 ⟨e, h4, h3⟩
  obtain ⟨t', h1, h2⟩ := lastTf_of_mem this
  rw [h] at h1
  cases h1
  exact h2

/-- The second image is the first one with operations on top, whose transforms compose to `m`. -/
inductive OnTop (s : Node) : Node → Affine → Prop
  | refl : OnTop s s .id
  | warp (x : Node) (m tf : Affine) (d : Int × Int) (a : Algo) (h : OnTop s x m) : OnTop s (.warp x tf d a) (tf * m)
  | crop (x : Node) (m : Affine) (y0 y1 x0 x1 : Int) (c : Option (List Nat)) (h : OnTop s x m) :
      OnTop s (.crop x y0 y1 x0 x1 c) (Affine.trans (-x0) (-y0) * m)
  | overview (x : Node) (m : Affine) (k : Int) (d : Int × Int) (h : OnTop s x m) :
      OnTop s (.overview x k d) (Affine.scale ((2 : ℚ) ^ k)⁻¹ * m)
  | dequant (x : Node) (m : Affine) (q : Quantization) (d : Int × Int) (h : OnTop s x m) :
      OnTop s (.dequant x q d) m

theorem OnTop.pathTfs {s n : Node} {m : Affine} (h : OnTop s n m) :
    pathTfs n = (pathTfs s).map fun e => (e.1, m * e.2) := by
  induction h with
  | refl => simp
  | warp x m tf d a _ ih => simp [Props.pathTfs, ih, Affine.mul_assoc']
  | crop x m y0 y1 x0 x1 c _ ih => simp [Props.pathTfs, ih, Affine.mul_assoc']
  | overview x m k d _ ih => simp [Props.pathTfs, ih, Affine.mul_assoc']
  | dequant x m q d _ ih => simp [Props.pathTfs, ih]

theorem OnTop.wf {s n : Node} {m : Affine} (h : OnTop s n m) (hn : WF n) : WF s ∧ m.det ≠ 0 := by
  induction h with
  | refl => exact ⟨hn, by simp⟩
  | warp x m tf d a _ ih =>
    obtain ⟨h1, h2⟩ := ih hn.1
    exact ⟨h1, by rw [Affine.det_mul]; exact mul_ne_zero hn.2 h2⟩
  | crop x m y0 y1 x0 x1 c _ ih =>
    obtain ⟨h1, h2⟩ := ih hn.1
    exact ⟨h1, by rw [Affine.det_mul]; exact mul_ne_zero (by simp) h2⟩
  | overview x m k d _ ih =>
    obtain ⟨h1, h2⟩ := ih hn
    refine ⟨h1, ?_⟩
    rw [Affine.det_mul]
    refine mul_ne_zero ?_ h2
    rw [Affine.det_scale]
    have : (2 : ℚ) ^ k ≠ 0 := zpow_ne_zero _ (by norm_num)
    positivity
  | dequant x m q d _ ih => exact ih hn

theorem firstCommon_map (es : List (Nat × Affine)) (f g : Affine → Affine) (h : es ≠ []) :
    ∃ k, firstCommon (es.map fun e => (e.1, f e.2)) (es.map fun e => (e.1, g e.2)) = some k := by
  cases es with
  | nil => exact absurd rfl h
  | cons e es => exact ⟨e.1, by simp [firstCommon]⟩

theorem lastTf_map (es : List (Nat × Affine)) (f : Affine → Affine) (k : Nat) :
    lastTf (es.map fun e => (e.1, f e.2)) k = (lastTf es k).map f := by
  unfold lastTf
  rw [← List.map_reverse, List.find?_map, Option.map_map, Option.map_map]
  rfl

/-- C31: the transform of an image from itself is the identity, and between an image, which may be a
concat, and one with operations on top, it is the composition of the transforms of these operations or the
inverse. -/
theorem C31_on_top {s n : Node} {m : Affine} (hb : Built n) (h : OnTop s n m) :
    transformFrom n s = .ok m ∧ transformFrom s n = .ok m.inv := by
  have hw := hb.ok.1
  obtain ⟨hs, hm⟩ := h.wf hw
  have hp := h.pathTfs
  have hid : (pathTfs s).map (fun e => (e.1, _root_.id e.2)) = pathTfs s := by simp
  constructor
  · obtain ⟨k, hk⟩ := firstCommon_map (pathTfs s) (fun t => m * t) _root_.id (pathTfs_ne_nil s hs)
    rw [hid, ← hp] at hk
    obtain ⟨d, t, h1, h2, h3⟩ := from_eq hw hs hk
    rw [h3]
    rw [hp, lastTf_map, h2] at h1
    cases h1
    have := pathTfs_det s hs _ (lastTf_mem h2)
    rw [Affine.mul_assoc', Affine.mul_inv t this, Affine.mul_id]
  · obtain ⟨k, hk⟩ := firstCommon_map (pathTfs s) _root_.id (fun t => m * t) (pathTfs_ne_nil s hs)
    rw [hid, ← hp] at hk
    obtain ⟨d, t, h1, h2, h3⟩ := from_eq hs hw hk
    rw [h3]
    rw [hp, lastTf_map, h1] at h2
    cases h2
    have := pathTfs_det s hs _ (lastTf_mem h1)
    rw [Affine.inv_mul_rev m d hm this, ← Affine.mul_assoc', Affine.mul_inv d this, Affine.id_mul]

theorem C31_self {n : Node} (hb : Built n) : transformFrom n n = .ok .id := (C31_on_top hb .refl).1

/-- The image shows its leafs, each placed by `base` in a common space, through the transform `t` of this
space. -/
def Placed (base : Nat → Affine) (n : Node) (t : Affine) : Prop := ∀ e ∈ pathTfs n, e.2 = t * base e.1

/-- Some leaf is in both. -/
def Related (a b : Node) : Prop := ∃ k, k ∈ (pathTfs a).map (·.1) ∧ k ∈ (pathTfs b).map (·.1)

theorem related_common {a b : Node} (h : Related a b) : ∃ k, firstCommon (pathTfs a) (pathTfs b) = some k := by
  obtain ⟨k, h1, h2⟩ := h
  rw [firstCommon]
  cases hf : ((pathTfs a).map (·.1)).find? (fun k => decide (k ∈ (pathTfs b).map (·.1))) with
  | some j => exact ⟨j, rfl⟩
  | none =>
    rw [List.find?_eq_none] at hf
    exact absurd (by simpa using h2) (hf k h1)

/-- C31 for images, also concats, that show leafs placed in one common space: the result is the transform
between the images of this space. -/
theorem C31_placed_partial {base : Nat → Affine} (hbase : ∀ k, (base k).det ≠ 0) {a b : Node} {s t : Affine}
    (ha : Built a) (hb : Built b) (hs : Placed base a s) (ht : Placed base b t) (htd : t.det ≠ 0) (hr : Related a b) :
    transformFrom a b = .ok (s * t.inv) := by
  obtain ⟨k, hk⟩ := related_common hr
  obtain ⟨d, u, h1, h2, h3⟩ := from_eq ha.ok.1 hb.ok.1 hk
  have e1 : d = s * base k := hs _ (lastTf_mem h1)
  have e2 : u = t * base k := ht _ (lastTf_mem h2)
  rw [h3, e1, e2, Affine.inv_mul_rev _ _ htd (hbase k), Affine.mul_assoc',
    ← Affine.mul_assoc' (base k), Affine.mul_inv _ (hbase k), Affine.id_mul]

/-- C31, composition and inversion for images placed in one common space, in which all images without
concats over the same leaf are.  Missing: other concats, see `C31_groupoid_violated`. -/
theorem C31_groupoid_partial {base : Nat → Affine} (hbase : ∀ k, (base k).det ≠ 0) {a b c : Node} {s t u : Affine}
    (ha : Built a) (hb : Built b) (hc : Built c) (hs : Placed base a s) (ht : Placed base b t)
    (hu : Placed base c u) (hsd : s.det ≠ 0) (htd : t.det ≠ 0) (hud : u.det ≠ 0) (hab : Related a b)
    (hbc : Related b c) (hac : Related a c) :
    ∃ ab bc ac ba : Affine, transformFrom a b = .ok ab ∧ transformFrom b c = .ok bc ∧
      transformFrom a c = .ok ac ∧ transformFrom b a = .ok ba ∧ ab * bc = ac ∧ ba = ab.inv := by
  have hba : Related b a := ⟨hab.choose, hab.choose_spec.2, hab.choose_spec.1⟩
  refine ⟨_, _, _, _, C31_placed_partial hbase ha hb hs ht htd hab, C31_placed_partial hbase hb hc ht hu hud hbc,
    C31_placed_partial hbase ha hc hs hu hud hac, C31_placed_partial hbase hb ha ht hs hsd hba, ?_, ?_⟩
  · rw [Affine.mul_assoc', ← Affine.mul_assoc' t.inv, Affine.inv_mul t htd, Affine.id_mul]
  · rw [Affine.inv_mul_rev _ _ hsd (Affine.det_inv t htd), Affine.inv_inv t htd]

/-- The leaf of an image without concats. -/
def single : Node → Option Nat
  | .leaf l => some l.id
  | .concat _ _ => none
  | .warp s _ _ _ => single s
  | .crop s _ _ _ _ _ => single s
  | .overview s _ _ => single s
  | .dequant s _ _ => single s

theorem single_path : ∀ n : Node, ∀ i, single n = some i → ∃ t, pathTfs n = [(i, t)] := by
  apply childInd' (P := fun n => ∀ i, single n = some i → ∃ t, pathTfs n = [(i, t)])
  intro n ih i h
  cases n with
  | leaf l => cases h; exact ⟨.id, rfl⟩
  | concat ps d => cases h
  | warp s tf d a => obtain ⟨t, e⟩ := ih s (by simp [children]) i h; exact ⟨tf * t, by simp [pathTfs, e]⟩
  | crop s y0 y1 x0 x1 c =>
    obtain ⟨t, e⟩ := ih s (by simp [children]) i h
    exact ⟨Affine.trans (-x0) (-y0) * t, by simp [pathTfs, e]⟩
  | overview s k d =>
    obtain ⟨t, e⟩ := ih s (by simp [children]) i h
    exact ⟨Affine.scale ((2 : ℚ) ^ k)⁻¹ * t, by simp [pathTfs, e]⟩
  | dequant s q d => obtain ⟨t, e⟩ := ih s (by simp [children]) i h; exact ⟨t, by simp [pathTfs, e]⟩

/-- C31 for images without concats over the same leaf: composition and inversion. -/
theorem C31_chains_partial {a b c : Node} {i : Nat} (ha : Built a) (hb : Built b) (hc : Built c)
    (hsa : single a = some i) (hsb : single b = some i) (hsc : single c = some i) :
    ∃ ab bc ac ba : Affine, transformFrom a b = .ok ab ∧ transformFrom b c = .ok bc ∧
      transformFrom a c = .ok ac ∧ transformFrom b a = .ok ba ∧ ab * bc = ac ∧ ba = ab.inv := by
  obtain ⟨s, es⟩ := single_path a i hsa
  obtain ⟨t, et⟩ := single_path b i hsb
  obtain ⟨u, eu⟩ := single_path c i hsc
  have pl : ∀ {n t}, pathTfs n = [(i, t)] → Placed (fun _ => .id) n t := by
    intro n t e f hf
    rw [e, List.mem_singleton] at hf
    rw [hf]
    simp
  have dt : ∀ {n t}, Built n → pathTfs n = [(i, t)] → t.det ≠ 0 := by
    intro n t hn e
    exact pathTfs_det n hn.ok.1 (i, t) (by rw [e]; simp)
  exact C31_groupoid_partial (base := fun _ => .id) (by simp) ha hb hc (pl es) (pl et) (pl eu) (dt ha es) (dt hb et)
    (dt hc eu) ⟨i, by simp [es], by simp [et]⟩ ⟨i, by simp [et], by simp [eu]⟩ ⟨i, by simp [es], by simp [eu]⟩

/-! #### examples and violations -/

def band1 : Node := .leaf ⟨1, (10, 10), 1, none, none, false⟩
def band2 : Node := .leaf ⟨2, (10, 10), 1, none, none, false⟩
def moved : Node := mkWarp band2 (.trans 1 0) (some (10, 10)) .default

theorem band1_built : Built band1 := .leaf _ ⟨(by intro l h; cases h), (by intro h; cases h)⟩ ⟨by decide, by decide⟩
theorem band2_built : Built band2 := .leaf _ ⟨(by intro l h; cases h), (by intro h; cases h)⟩ ⟨by decide, by decide⟩
theorem moved_built : Built moved :=
  .warp _ _ (some (10, 10)) _ band2_built (by decide +kernel) ⟨by decide, by decide⟩

theorem pair_built {a b : Node} (ha : Built a) (hb : Built b) (h1 : a.dsize = (10, 10)) (h2 : b.dsize = (10, 10)) :
    Built (.concat [a, b] (10, 10)) := by
  refine .concat [a, b] _ ?_ (by simp [mkConcat, h1, h2])
  intro p hp
  simp only [List.mem_cons, List.not_mem_nil, or_false] at hp
  rcases hp with rfl | rfl
  · exact ha
  · exact hb

/-- A part of a concat of two images, one of them moved. -/
example : ∃ s n, Built n ∧ OnTop s n (Affine.trans (-2) (-3) * Affine.scale (1 / 2)) ∧ (pathTfs s).length = 2 := by
  have hb := pair_built band1_built moved_built rfl rfl
  refine ⟨.concat [band1, moved] (10, 10), .crop (mkWarp (.concat [band1, moved] (10, 10)) (.scale (1 / 2)) none
    .default) 3 5 2 5 none, ?_, ?_, rfl⟩
  · have e : (mkWarp (.concat [band1, moved] (10, 10)) (.scale (1 / 2)) none .default).dsize = (5, 5) := by
      decide +kernel
    refine .crop _ _ (some ((some 3, none), (some 2, none))) none
      (.warp _ (.scale (1 / 2)) none .default hb (by decide +kernel) ?_) trivial ?_
    · rw [e]; exact ⟨by decide, by decide⟩
    · unfold mkCrop; rw [e]; rfl
  · have h := OnTop.crop (s := .concat [band1, moved] (10, 10)) _ _ 3 5 2 5 none (.warp _ _ (.scale (1 / 2))
      (autoDsize (some (.scale (1 / 2))) (10, 10)) .default .refl)
    simp only [Affine.mul_id] at h
    exact_mod_cast h

/-- Two images of the same two files in which the common space is moved by 1 and by 3. -/
example : Placed (fun k => if k = 1 then .id else .trans 1 0) (.concat [band1, moved] (10, 10)) .id ∧
    Placed (fun k => if k = 1 then .id else .trans 1 0)
      (.concat [mkWarp band2 (.trans 4 0) (some (10, 10)) .default,
        mkWarp band1 (.trans 3 0) (some (10, 10)) .default] (10, 10)) (.trans 3 0) := by
  constructor
  · intro e he
    simp only [pathTfs, pathTfsL, band1, moved, band2, mkWarp, List.map_cons, List.map_nil, List.nil_append,
      List.append_nil, List.cons_append, List.mem_cons, List.not_mem_nil, or_false] at he
    rcases he with rfl | rfl <;> decide +kernel
  · intro e he
    simp only [pathTfs, pathTfsL, band1, band2, mkWarp, List.map_cons, List.map_nil, List.nil_append,
      List.append_nil, List.cons_append, List.mem_cons, List.not_mem_nil, or_false] at he
    rcases he with rfl | rfl <;> decide +kernel

/-- C31 fails for concats that show the same files with different offsets: the transforms in both
directions are not inverse to each other and do not compose. -/
theorem C31_groupoid_violated : ∃ a b : Node, Built a ∧ Built b ∧ Related a b ∧
    transformFrom a b = .ok (.trans 1 0) ∧ transformFrom b a = .ok .id ∧ transformFrom a a = .ok .id ∧
    Affine.trans 1 0 ≠ Affine.inv .id ∧ Affine.trans 1 0 * Affine.id ≠ .id := by
  have ha := pair_built band1_built moved_built rfl rfl
  have hb := pair_built band2_built band1_built rfl rfl
  refine ⟨_, _, ha, hb, ⟨1, by decide, by decide⟩, ?_, ?_, C31_self ha, by decide +kernel, by decide +kernel⟩
  · obtain ⟨d, s, h1, h2, h3⟩ := from_eq (k := 2) ha.ok.1 hb.ok.1 (by decide)
    rw [h3]
    have e1 : lastTf (pathTfs (.concat [band1, moved] (10, 10))) 2 = some (.trans 1 0) := by decide +kernel
    have e2 : lastTf (pathTfs (.concat [band2, band1] (10, 10))) 2 = some .id := by decide +kernel
    rw [e1] at h1
    rw [e2] at h2
    cases h1
    cases h2
    rw [Affine.inv_id, Affine.mul_id]
  · obtain ⟨d, s, h1, h2, h3⟩ := from_eq (k := 1) hb.ok.1 ha.ok.1 (by decide)
    rw [h3]
    have e1 : lastTf (pathTfs (.concat [band1, moved] (10, 10))) 1 = some .id := by decide +kernel
    have e2 : lastTf (pathTfs (.concat [band2, band1] (10, 10))) 1 = some .id := by decide +kernel
    rw [e2] at h1
    rw [e1] at h2
    cases h1
    cases h2
    rw [Affine.inv_id, Affine.mul_id]

/-- C31 fails for parts of concats: the second part is stacked as it is, but the transform is the one of
the first part, which shows the same file. -/
theorem C31_part_violated : ∃ x : Node, Built x ∧ Built (.concat [moved, x] (10, 10)) ∧
    transformFrom (.concat [moved, x] (10, 10)) x = .ok (.trans 1 0) := by
  have hx : Built (mkDequant band2 ⟨0, 1, 0, 255, none⟩) := .dequant _ _ band2_built
  have ha := pair_built moved_built hx rfl rfl
  refine ⟨_, hx, ha, ?_⟩
  obtain ⟨d, s, h1, h2, h3⟩ := from_eq (k := 2) ha.ok.1 hx.ok.1 (by decide)
  rw [h3]
  have e1 : lastTf (pathTfs (.concat [moved, mkDequant band2 ⟨0, 1, 0, 255, none⟩] (10, 10))) 2 = some (.trans 1 0) := by
    decide +kernel
  have e2 : lastTf (pathTfs (mkDequant band2 ⟨0, 1, 0, 255, none⟩)) 2 = some .id := by decide +kernel
  rw [e1] at h1
  rw [e2] at h2
  cases h1
  cases h2
  rw [Affine.inv_id, Affine.mul_id]

end Verif.Props
