/-
Termination of `optimize`: a measure on trees that goes down with every recursive call bounds the
recursion.  `Ends H n r` says that `opt H f n = r` for every large enough bound `f` on the depth of the
recursion, and `r` is not the exception raised at the bound.
-/
import Verif.OptLemmas

namespace Verif
namespace Tree

open Helpers Node

/-- With enough stack, `optimize` gives `r`. -/
def Ends (H : Heur) (n : Node) (r : Py Node) : Prop :=
  r ≠ .error .recursion ∧ ∃ F, ∀ f, F ≤ f → opt H f n = r

theorem Ends.det {H : Heur} {n : Node} {r r' : Py Node} (h : Ends H n r) (h' : Ends H n r') : r = r' := by
  obtain ⟨_, F, hF⟩ := h
  obtain ⟨_, F', hF'⟩ := h'
  exact (hF (max F F') (le_max_left _ _)).symm.trans (hF' _ (le_max_right _ _))

open Classical in
/-- The result of `optimize` with enough stack. -/
noncomputable def lim (H : Heur) (n : Node) : Py Node :=
  if h : ∃ r, Ends H n r then h.choose else .error .recursion

theorem lim_ends {H : Heur} {n : Node} (h : lim H n ≠ .error .recursion) : Ends H n (lim H n) := by
  unfold lim at h ⊢
  split at h
  · rename_i hx
    rw [dif_pos hx]
    exact hx.choose_spec
  · exact absurd rfl h

theorem Ends.lim {H : Heur} {n : Node} {r : Py Node} (h : Ends H n r) : lim H n = r := by
  have hx : ∃ r, Ends H n r := ⟨r, h⟩
  unfold Tree.lim
  rw [dif_pos hx]
  exact hx.choose_spec.det h

/-- `except`-free sequencing. -/
def andThen {α β : Type} (x : Py α) (k : α → Py β) : Py β :=
  match x with
  | .error e => .error e
  | .ok a => k a

/-- Wherever `r1` has an answer other than the exception at the bound, `r2` has the same. -/
def Extends (r1 r2 : Node → Py Node) : Prop := ∀ x, r1 x ≠ .error .recursion → r2 x = r1 x

/-- A computation that uses its recursive calls finitely often, and passes on the exception at the bound. -/
structure Cont (H : Heur) {β : Type} (G : (Node → Py Node) → Py β) : Prop where
  lim : G (lim H) ≠ .error .recursion → ∃ F, ∀ f, F ≤ f → G (opt H f) = G (lim H)
  mono : ∀ {r1 r2 : Node → Py Node}, Extends r1 r2 → G r1 ≠ .error .recursion → G r2 = G r1

variable {H : Heur}

theorem Cont.const {β : Type} (x : Py β) : Cont H (fun _ => x) := ⟨fun _ => ⟨0, fun _ _ => rfl⟩, fun _ _ => rfl⟩

theorem Cont.call (x : Node) : Cont H (fun rec => rec x) := ⟨fun h => (lim_ends h).2, fun he h => he x h⟩

theorem Cont.bind {α β : Type} {G : (Node → Py Node) → Py α} {K : α → (Node → Py Node) → Py β}
    (hG : Cont H G) (hK : ∀ a, Cont H (K a)) : Cont H (fun rec => andThen (G rec) (fun a => K a rec)) := by
  refine ⟨fun h => ?_, fun {r1 r2} he h => ?_⟩
  · cases hg : G (Tree.lim H) with
    | error e =>
      simp only [hg, andThen] at h
      obtain ⟨F, hF⟩ := hG.lim (by rw [hg]; intro e'; cases e'; exact h rfl)
      exact ⟨F, fun f hf => by simp only [hF f hf, hg, andThen]⟩
    | ok a =>
      simp only [hg, andThen] at h
      obtain ⟨F, hF⟩ := hG.lim (by rw [hg]; simp)
      obtain ⟨F', hF'⟩ := (hK a).lim h
      refine ⟨max F F', fun f hf => ?_⟩
      simp only [hF f ((le_max_left _ _).trans hf), hg, andThen, hF' f ((le_max_right _ _).trans hf)]
  · cases hg : G r1 with
    | error e =>
      simp only [hg, andThen] at h
      simp only [hG.mono he (by rw [hg]; intro e'; cases e'; exact h rfl), hg, andThen]
    | ok a =>
      simp only [hg, andThen] at h
      simp only [hG.mono he (by rw [hg]; simp), hg, andThen]
      exact (hK a).mono he h

theorem Cont.of_eq {β : Type} {G G' : (Node → Py Node) → Py β} (h : ∀ rec, G rec = G' rec)
    (hG : Cont H G') : Cont H G := by
  have : G = G' := funext h
  rw [this]; exact hG

theorem Cont.mapAll : ∀ ps : List Node, Cont H (fun rec => Tree.mapAll rec ps)
  | [] => Cont.const _
  | p :: ps => by
    refine Cont.of_eq (G' := fun rec => andThen (rec p) fun y => andThen (Tree.mapAll rec ps) fun ys =>
      .ok (y :: ys)) ?_ ?_
    · intro rec
      simp only [Tree.mapAll, andThen]
      cases rec p with
      | error e => rfl
      | ok y => cases Tree.mapAll rec ps <;> rfl
    · exact Cont.bind (Cont.call _) fun y => Cont.bind (Cont.mapAll ps) fun ys => Cont.const _

theorem Cont.finish (n : Node) : Cont H (fun rec => Tree.finish rec n) := by
  unfold Tree.finish
  split
  · exact Cont.const _
  · split
    · exact Cont.const _
    · exact Cont.const _
    · exact Cont.call _
  · exact Cont.const _

theorem Cont.cropConcat (ps : List Node) (d : Int × Int) (y0 y1 x0 x1 : Int) (c : Option (List Nat)) :
    Cont H (fun rec => Tree.cropConcat rec ps d y0 y1 x0 x1 c) := by
  refine Cont.of_eq (G' := fun rec => andThen (match c with
    | none => .ok (.concat ps d)
    | some c =>
      match takeIdx (.concat ps d) c with
      | .error e => .error e
      | .ok t => rec t : Py Node) fun taken => match mkCrop taken (ints y0 y1 x0 x1) none with
    | .error e => .error e
    | .ok cr =>
      match taken with
      | .concat qs _ =>
        match pushUnder cr qs with
        | .error e => .error e
        | .ok none => rec cr
        | .ok (some p) => rec p
      | _ => rec cr) ?_ ?_
  · intro rec
    unfold Tree.cropConcat andThen
    cases c with
    | none =>
      dsimp only
      cases mkCrop (.concat ps d) (ints y0 y1 x0 x1) none with
      | error e => rfl
      | ok cr =>
        dsimp only
        cases pushUnder cr ps with
        | error e => rfl
        | ok o => cases o <;> rfl
    | some c =>
      dsimp only
      cases takeIdx (.concat ps d) c with
      | error e => rfl
      | ok t =>
        dsimp only
        cases rec t with
        | error e => rfl
        | ok taken =>
          dsimp only
          cases mkCrop taken (ints y0 y1 x0 x1) none with
          | error e => rfl
          | ok cr =>
            cases taken <;> try rfl
            rename_i qs _
            dsimp only
            cases pushUnder cr qs with
            | error e => rfl
            | ok o => cases o <;> rfl
  · refine Cont.bind ?_ fun taken => ?_
    · cases c with
      | none => exact Cont.const _
      | some c =>
        dsimp only
        split
        · exact Cont.const _
        · exact Cont.call _
    · split
      · exact Cont.const _
      · split
        · split
          · exact Cont.const _
          · exact Cont.call _
          · exact Cont.call _
        · exact Cont.call _

theorem Cont.finishCrop (n : Node) : Cont H (fun rec => Tree.finishCrop rec n) := by
  unfold Tree.finishCrop
  split
  · exact Cont.cropConcat _ _ _ _ _ _ _
  · exact Cont.finish _

theorem Cont.cropRest (s : Node) (y0 y1 x0 x1 : Int) (c : Option (List Nat)) :
    Cont H (fun rec => Tree.cropRest rec s y0 y1 x0 x1 c) := by
  unfold Tree.cropRest
  split
  · split
    · exact Cont.const _
    · split
      · exact Cont.const _
      · exact Cont.const _
      · exact Cont.of_eq (fun rec => by cases rec _ <;> rfl)
          (Cont.bind (Cont.call _) fun r => Cont.finishCrop r)
  · exact Cont.of_eq (fun rec => by cases rec _ <;> rfl)
      (Cont.bind (Cont.call _) fun r => Cont.finishCrop r)
  · exact Cont.finishCrop _

theorem Cont.optCrop (s : Node) (y0 y1 x0 x1 : Int) (c : Option (List Nat)) :
    Cont H (fun rec => Tree.optCrop rec s y0 y1 x0 x1 c) := by
  refine Cont.of_eq (G' := fun rec => andThen (rec s) fun s' =>
    match (match s' with
      | .crop s1 iy0 iy1 ix0 ix1 ic => fuseCrops s1 iy0 iy1 ix0 ix1 ic y0 y1 x0 x1 c
      | s' => .ok (.crop s' y0 y1 x0 x1 c) : Py Node) with
    | .error e => .error e
    | .ok (.crop s2 y0' y1' x0' x1' c') =>
      match (match s2 with | .leaf l => if l.nan then some l else none | _ => none : Option Leaf) with
      | some l =>
        match nanCrop l y0 y1 x0 x1 c with
        | .error e => .error e
        | .ok r => rec r
      | none => Tree.cropRest rec s2 y0' y1' x0' x1' c'
    | .ok n => .ok n) ?_ ?_
  · intro rec
    unfold Tree.optCrop andThen
    cases rec s with
    | error e => rfl
    | ok s' =>
      cases s' with
      | crop s1 iy0 iy1 ix0 ix1 ic =>
        dsimp only
        cases fuseCrops s1 iy0 iy1 ix0 ix1 ic y0 y1 x0 x1 c with
        | error e => rfl
        | ok r =>
          cases r <;> try rfl
          rename_i s2 _ _ _ _ _
          cases s2 <;> try rfl
          rename_i l
          dsimp only
          cases l.nan <;> simp only [if_true, Bool.false_eq_true, if_false]
          cases nanCrop l y0 y1 x0 x1 c <;> rfl
      | leaf l =>
        dsimp only
        cases l.nan <;> simp only [if_true, Bool.false_eq_true, if_false]
        cases nanCrop l y0 y1 x0 x1 c <;> rfl
      | _ => rfl
  · refine Cont.bind (Cont.call _) fun s' => ?_
    split
    · exact Cont.const _
    · split
      · split
        · exact Cont.const _
        · exact Cont.call _
      · exact Cont.cropRest _ _ _ _ _ _
    · exact Cont.const _

theorem Cont.split (s : Node) (tf : Affine) (d : Int × Int) (a : Algo) :
    Cont H (fun rec => Tree.split H rec s tf d a) := by
  unfold Tree.split
  split
  · exact Cont.const _
  · exact Cont.const _
  · split
    · exact Cont.const _
    · split
      · exact Cont.const _
      · dsimp only
        split
        · exact Cont.const _
        · split
          · split
            · split
              · exact Cont.const _
              · exact Cont.of_eq (fun rec => by cases rec _ <;> rfl)
                  (Cont.bind (Cont.call _) fun r => Cont.const (.ok (some r)))
            · exact Cont.const _
          · exact Cont.const _

/-- What `warpRest` does with the result of `split`. -/
def afterSplit (H : Heur) (rec : Node → Py Node) (s : Node) (tf : Affine) (d : Int × Int) (a : Algo)
    (o : Option Node) : Py Node :=
  match o with
  | none => absorb H s tf d a
  | some new =>
    match subOf new with
    | .error e => .error e
    | .ok none => .error .attributeError
    | .ok (some x) =>
      match rec x with
      | .error e => .error e
      | .ok x' => rec (setSub new x')

theorem Cont.afterSplit (s : Node) (tf : Affine) (d : Int × Int) (a : Algo) (o : Option Node) :
    Cont H (fun rec => Tree.afterSplit H rec s tf d a o) := by
  unfold Tree.afterSplit
  cases o with
  | none => exact Cont.const _
  | some new =>
    dsimp only
    split
    · exact Cont.const _
    · exact Cont.const _
    · exact Cont.of_eq (fun rec => by cases rec _ <;> rfl)
        (Cont.bind (Cont.call _) fun x' => Cont.call _)

/-- `warpRest` for sources that are not concats. -/
theorem warpRest_eq (H : Heur) (rec : Node → Py Node) {s : Node} (tf : Affine) (d : Int × Int) (a : Algo)
    (hs : ∀ ps e, s ≠ .concat ps e) : warpRest H rec s tf d a =
      if d = s.dsize ∧ H.negl a.noopEps tf = true then .ok s
      else match (match s with | .leaf l => if l.nan then some l else none | _ => none : Option Leaf) with
        | some l => rec (nanLeaf l.id d l.names)
        | none => andThen (split H rec s tf d a) (afterSplit H rec s tf d a) := by
  unfold warpRest
  split
  · rfl
  · cases s with
    | concat ps e => exact absurd rfl (hs ps e)
    | leaf l =>
      dsimp only
      by_cases hl : l.nan = true
      · simp only [hl, if_true]
      · rw [if_neg hl]
        dsimp only
        unfold andThen afterSplit; cases split H rec _ tf d a with
        | error e => rfl
        | ok o =>
          cases o <;> try rfl
          rename_i new
          dsimp only
          cases subOf new with
          | error e => rfl
          | ok o =>
            cases o <;> try rfl
            rename_i x
            dsimp only
            cases rec x <;> rfl
    | _ =>
      dsimp only
      unfold andThen afterSplit; cases split H rec _ tf d a with
        | error e => rfl
        | ok o =>
          cases o <;> try rfl
          rename_i new
          dsimp only
          cases subOf new with
          | error e => rfl
          | ok o =>
            cases o <;> try rfl
            rename_i x
            dsimp only
            cases rec x <;> rfl

theorem Cont.warpRest (s : Node) (tf : Affine) (d : Int × Int) (a : Algo) :
    Cont H (fun rec => Tree.warpRest H rec s tf d a) := by
  by_cases hs : ∃ ps e, s = .concat ps e
  · obtain ⟨ps, e, rfl⟩ := hs
    unfold Tree.warpRest
    split
    · exact Cont.const _
    · dsimp only
      split
      · exact Cont.const _
      · exact Cont.const _
      · exact Cont.call _
  · refine Cont.of_eq (fun rec => warpRest_eq H rec tf d a (fun ps e h => hs ⟨ps, e, h⟩)) ?_
    split
    · exact Cont.const _
    · split
      · exact Cont.call _
      · exact Cont.bind (Cont.split _ _ _ _) fun o => Cont.afterSplit _ _ _ _ _

theorem Cont.optWarp (s : Node) (tf : Affine) (d : Int × Int) (a : Algo) :
    Cont H (fun rec => Tree.optWarp H rec s tf d a) := by
  refine Cont.of_eq (G' := fun rec => andThen (rec s) fun s' => match s' with
    | .warp s1 tf1 _ _ => Tree.warpRest H rec s1 (tf * tf1) d a.common
    | s' => Tree.warpRest H rec s' tf d a) ?_ ?_
  · intro rec
    unfold Tree.optWarp andThen
    cases rec s with
    | error e => rfl
    | ok s' => cases s' <;> rfl
  · refine Cont.bind (Cont.call _) fun s' => ?_
    cases s' <;> exact Cont.warpRest _ _ _ _

theorem Cont.overviewRest (s : Node) (k : Int) (d : Int × Int) :
    Cont H (fun rec => Tree.overviewRest H rec s k d) := by
  unfold Tree.overviewRest
  split
  · exact Cont.finish _
  · split
    · split
      · exact Cont.const _
      · exact Cont.of_eq (fun rec => by cases rec _ <;> rfl)
          (Cont.bind (Cont.call _) fun r => Cont.finish r)
    · exact Cont.of_eq (fun rec => by cases rec _ <;> rfl)
        (Cont.bind (Cont.call _) fun r => Cont.finish r)
    · exact Cont.of_eq (fun rec => by cases rec _ <;> rfl)
        (Cont.bind (Cont.call _) fun r => Cont.finish r)
    · exact Cont.finish _

theorem Cont.optOverview (s : Node) (k : Int) (d : Int × Int) :
    Cont H (fun rec => Tree.optOverview H rec s k d) := by
  refine Cont.of_eq (G' := fun rec => andThen (rec s) fun s' => match s' with
    | .overview s1 k1 _ => Tree.overviewRest H rec s1 (k1 + k) (mkOverview s1 (k1 + k)).dsize
    | s' => Tree.overviewRest H rec s' k d) ?_ ?_
  · intro rec
    unfold Tree.optOverview andThen
    cases rec s with
    | error e => rfl
    | ok s' => cases s' <;> rfl
  · refine Cont.bind (Cont.call _) fun s' => ?_
    cases s' <;> exact Cont.overviewRest _ _ _

theorem Cont.optDequant (s : Node) (q : Quantization) (d : Int × Int) :
    Cont H (fun rec => Tree.optDequant rec s q d) := by
  refine Cont.of_eq (G' := fun rec => andThen (rec s) fun s' => match s' with
    | .dequant _ _ _ => .error .assertionError
    | .warp x tf dw a => andThen (rec (.warp (mkDequant x q) tf dw a)) (fun r => Tree.finish rec r)
    | s' => Tree.finish rec (.dequant s' q d)) ?_ ?_
  · intro rec
    unfold Tree.optDequant andThen
    cases rec s with
    | error e => rfl
    | ok s' =>
      cases s' with
      | warp x tf dw a =>
        dsimp only
        cases rec (.warp (mkDequant x q) tf dw a) <;> rfl
      | _ => rfl
  · refine Cont.bind (Cont.call _) fun s' => ?_
    cases s' with
    | dequant _ _ _ => exact Cont.const _
    | warp _ _ _ _ => exact Cont.bind (Cont.call _) fun r => Cont.finish r
    | _ => exact Cont.finish _

theorem Cont.optConcat (ps : List Node) (d : Int × Int) :
    Cont H (fun rec => Tree.optConcat rec ps d) := by
  refine Cont.of_eq (G' := fun rec => andThen (Tree.mapAll rec ps) fun qs => match mkConcat qs with
    | .ok c => .ok c
    | .error .coordinateCompat => .ok (.concat ps d)
    | .error e => .error e) ?_ ?_
  · intro rec
    unfold Tree.optConcat andThen
    cases Tree.mapAll rec ps with
    | error e => rfl
    | ok qs =>
      dsimp only
      cases mkConcat qs with
      | error e => cases e <;> rfl
      | ok c => rfl
  · exact Cont.bind (Cont.mapAll _) fun qs => Cont.const _

theorem Cont.optStep (n : Node) : Cont H (fun rec => Tree.optStep H rec n) := by
  cases n with
  | leaf l => exact Cont.const _
  | concat ps d => exact Cont.optConcat _ _
  | warp s tf d a => exact Cont.optWarp _ _ _ _
  | crop s y0 y1 x0 x1 c => exact Cont.optCrop _ _ _ _ _ _
  | overview s k d => exact Cont.optOverview _ _ _
  | dequant s q d => exact Cont.optDequant _ _ _

/-- The result with enough stack is a solution of the recursion. -/
theorem lim_step {n : Node} (h : optStep H (lim H) n ≠ .error .recursion) :
    lim H n = optStep H (lim H) n := by
  obtain ⟨F, hF⟩ := (Cont.optStep n).lim h
  refine Ends.lim ⟨h, F + 1, fun f hf => ?_⟩
  obtain ⟨g, rfl⟩ : ∃ g, f = g + 1 := ⟨f - 1, by omega⟩
  rw [opt]
  exact hF g (by omega)

/-- A larger stack does not change a result. -/
theorem opt_extends : ∀ (f g : Nat), f ≤ g → Extends (opt H f) (opt H g)
  | 0, _, _, _, h => by simp [opt] at h
  | f + 1, 0, hfg, _, _ => by omega
  | f + 1, g + 1, hfg, x, h => by
    rw [opt] at h ⊢
    rw [opt]
    exact (Cont.optStep (H := H) x).mono (opt_extends f g (by omega)) h

theorem opt_ends {f : Nat} {n : Node} {r : Py Node} (h : opt H f n = r) (hr : r ≠ .error .recursion) :
    Ends H n r :=
  ⟨hr, f, fun g hg => by rw [opt_extends f g hg n (by rw [h]; exact hr), h]⟩

/-! #### what never raises at the bound -/

theorem mkConcat_noRec (ps : List Node) : mkConcat ps ≠ .error .recursion := by
  unfold mkConcat
  split
  · simp
  · split <;> simp

theorem mkCrop_noRec (n : Node) (sl : Option Space) (c : Option (List Nat)) :
    mkCrop n sl c ≠ .error .recursion := by
  unfold mkCrop
  split
  · rename_i e he
    unfold chanCheck at he
    split at he
    · split at he
      · cases he
      · cases he; simp
    · cases he
  · split <;> simp

theorem mapAll_noRec {α β : Type} {f : α → Py β} : ∀ {l : List α},
    (∀ x ∈ l, f x ≠ .error .recursion) → mapAll f l ≠ .error .recursion
  | [], _ => by simp [mapAll]
  | x :: xs, h => by
    have h1 := h x (by simp)
    have h2 := mapAll_noRec (l := xs) (fun y hy => h y (by simp [hy]))
    unfold mapAll
    split
    · rename_i e he; rw [he] at h1; simpa using h1
    · split
      · rename_i e he; rw [he] at h2; simpa using h2
      · simp

theorem reapply_noRec (op p : Node) : reapply op p ≠ .error .recursion := by
  unfold reapply
  split
  · simp
  · simp
  · simp
  · exact mkCrop_noRec _ _ _
  · simp
  · simp

theorem pushUnder_noRec (op : Node) (ps : List Node) : pushUnder op ps ≠ .error .recursion := by
  unfold pushUnder
  split
  · rename_i e he
    have := mapAll_noRec (f := reapply op) (l := ps) (fun x _ => reapply_noRec _ _)
    rw [he] at this
    simpa using this
  · split
    · simp
    · simp
    · rename_i e _ he
      have := mkConcat_noRec
      intro h; cases h
      exact this _ he

theorem subOf_noRec (n : Node) : subOf n ≠ .error .recursion := by
  cases n <;> simp [subOf]

theorem embedSlice_noRec (a b c d e : Int) : embedSlice a b c d e ≠ .error .recursion := by
  unfold embedSlice
  split <;> simp

theorem paddedCrop_noRec (n : Node) (y0 y1 x0 x1 : Int) (pad : (Int × Int) × (Int × Int)) :
    paddedCrop n y0 y1 x0 x1 pad ≠ .error .recursion := by
  unfold paddedCrop
  split
  · rename_i e he; intro h; cases h; exact embedSlice_noRec _ _ _ _ _ he
  · split
    · rename_i e he; intro h; cases h; exact embedSlice_noRec _ _ _ _ _ he
    · split
      · rename_i e he; intro h; cases h; exact mkCrop_noRec _ _ _ he
      · simp only
        split <;> simp

mutual
theorem numOverviews_noRec : ∀ n : Node, n.numOverviews ≠ .error .recursion
  | .leaf l => by simp [numOverviews]
  | .concat ps d => by
    have := numOverviewsL_noRec ps
    unfold numOverviews
    split
    · rename_i e he; rw [he] at this; simpa using this
    · simp
    · simp
  | .warp s _ _ _ => by rw [numOverviews]; exact numOverviews_noRec s
  | .crop s _ _ _ _ _ => by rw [numOverviews]; exact numOverviews_noRec s
  | .dequant s _ _ => by rw [numOverviews]; exact numOverviews_noRec s
  | .overview s k d => by
    have := numOverviews_noRec s
    unfold numOverviews
    split
    · rename_i e he; rw [he] at this; simpa using this
    · simp
    · simp
theorem numOverviewsL_noRec : ∀ ps : List Node, numOverviewsL ps ≠ .error .recursion
  | [] => by simp [numOverviewsL]
  | p :: ps => by
    have h1 := numOverviews_noRec p
    have h2 := numOverviewsL_noRec ps
    unfold numOverviewsL
    split
    · rename_i e he; rw [he] at h1; simpa using h1
    · split
      · rename_i e he; rw [he] at h2; simpa using h2
      · simp
end

theorem takeList_noRec (l : List Nat) : ∀ is, takeList l is ≠ .error .recursion
  | [] => by simp [takeList]
  | i :: is => by
    have := takeList_noRec l is
    unfold takeList
    split
    · simp
    · split
      · rename_i e he; rw [he] at this; simpa using this
      · simp

theorem fuseCrops_noRec (s : Node) (iy0 iy1 ix0 ix1 : Int) (ic : Option (List Nat)) (y0 y1 x0 x1 : Int)
    (c : Option (List Nat)) : fuseCrops s iy0 iy1 ix0 ix1 ic y0 y1 x0 x1 c ≠ .error .recursion := by
  unfold fuseCrops
  split
  · rename_i e he
    intro h; cases h
    unfold fuseChans at he
    split at he
    · cases he
    · cases he
    · cases he
    · split at he
      · rename_i e' he'
        cases he
        exact takeList_noRec _ _ he'
      · cases he
  · exact mkCrop_noRec _ _ _

theorem nanCrop_noRec (l : Leaf) (y0 y1 x0 x1 : Int) (c : Option (List Nat)) :
    (nanCrop l y0 y1 x0 x1 c : Py Node) ≠ .error .recursion := by
  unfold nanCrop
  split
  · rename_i e he
    intro h; cases h
    split at he
    · cases he
    · split at he
      · cases he
      · split at he <;> cases he
  · split
    · rename_i e he; intro h; cases h; exact embedSlice_noRec _ _ _ _ _ he
    · split
      · rename_i e he; intro h; cases h; exact embedSlice_noRec _ _ _ _ _ he
      · simp

theorem warpAfterCrop_noRec (s : Node) (tf : Affine) (y0 y1 x0 x1 : Int) (c : Option (List Nat)) :
    warpAfterCrop s tf y0 y1 x0 x1 c ≠ .error .recursion := by
  unfold warpAfterCrop
  split
  · simp
  · simp only
    split
    · rename_i e he; intro h; cases h; exact mkCrop_noRec _ _ _ he
    · simp

theorem relink_noRec : ∀ (ls : List Link) (n : Node), relink ls n ≠ .error .recursion
  | [], n => by simp [relink]
  | .deq q d :: ls, n => by
    have := relink_noRec ls n
    unfold relink
    split
    · rename_i e he; rw [he] at this; simpa using this
    · simp
  | .crop .. :: _, n => by simp [relink]

theorem absorb_noRec (H : Heur) (s : Node) (tf : Affine) (d : Int × Int) (a : Algo) :
    absorb H s tf d a ≠ .error .recursion := by
  unfold absorb
  split
  · simp
  · split
    · simp
    · split
      · simp
      · split
        · split
          · rename_i e he; intro h; cases h; exact warpAfterCrop_noRec _ _ _ _ _ _ _ he
          · simp
          · split
            · rename_i e he; intro h; cases h; exact relink_noRec _ _ he
            · simp
        · split
          · rename_i e he; intro h; cases h; exact relink_noRec _ _ he
          · simp

theorem cropAfterOverview_noRec (H : Heur) (s : Node) (y0 y1 x0 x1 : Int) (c : Option (List Nat))
    (k : Int) : cropAfterOverview H s y0 y1 x0 x1 c k ≠ .error .recursion := by
  unfold cropAfterOverview
  simp only
  split
  · rename_i e he; intro h; cases h; exact mkCrop_noRec _ _ _ he
  · split <;> simp

theorem locate_noRec (sizes : List Nat) (cur : Option Seg) (i : Option Nat) :
    locate sizes cur i ≠ .error .recursion := by
  unfold locate
  repeat' split
  all_goals simp

theorem accLoop_noRec (sizes : List Nat) : ∀ reqs st, accLoop sizes st reqs ≠ .error .recursion
  | [], st => by simp [accLoop]
  | r :: rs, st => by
    unfold accLoop
    split
    · rename_i e he; intro h; cases h; exact locate_noRec _ _ _ he
    · exact accLoop_noRec sizes rs _

theorem indexer_noRec (s : Seg) (n : Nat) : s.indexer n ≠ .error .recursion := by
  unfold Seg.indexer
  repeat' split
  all_goals simp

theorem concatTake_noRec {d : Int × Int} {ps : List Node} {reqs : List (Option Nat × Option Str)}
    (h : ∀ p ∈ ps, ∀ idxs, takeIdx p idxs ≠ .error .recursion) :
    concatTake d (takers ps) reqs ≠ .error .recursion := by
  unfold concatTake
  split
  · rename_i e he; intro h'; cases h'; exact accLoop_noRec _ _ _ he
  · split
    · rename_i e he
      intro h'; cases h'
      refine mapAll_noRec (fun sg _ => ?_) he
      unfold Seg.sub
      split
      · simp
      · split
        · simp
        · rename_i o p take hp
          rw [takers_eq] at hp
          simp only [List.getElem?_map, Option.map_eq_some_iff] at hp
          obtain ⟨p', hp', e⟩ := hp
          cases e
          split
          · rename_i e he; intro h'; cases h'; exact indexer_noRec _ _ he
          · simp
          · exact h _ (List.mem_of_getElem? hp') _
    · exact mkConcat_noRec _

mutual
theorem takeIdx_noRec : ∀ (n : Node) (idxs : List Nat), takeIdx n idxs ≠ .error .recursion
  | .leaf l, idxs => by rw [takeIdx]; exact mkCrop_noRec _ _ _
  | .warp s tf d a, idxs => by rw [takeIdx]; exact mkCrop_noRec _ _ _
  | .crop s y0 y1 x0 x1 c, idxs => by rw [takeIdx]; exact mkCrop_noRec _ _ _
  | .overview s k d, idxs => by rw [takeIdx]; exact mkCrop_noRec _ _ _
  | .dequant s q d, idxs => by rw [takeIdx]; exact mkCrop_noRec _ _ _
  | .concat ps d, idxs => by
    have := takeIdx_noRecL ps
    rw [takeIdx]
    split
    · simp
    · exact concatTake_noRec this
theorem takeIdx_noRecL : ∀ (ps : List Node), ∀ p ∈ ps, ∀ idxs, takeIdx p idxs ≠ .error .recursion
  | [], p, hp, _ => by simp at hp
  | q :: qs, p, hp, idxs => by
    rcases List.mem_cons.1 hp with e | hp
    · rw [e]; exact takeIdx_noRec q idxs
    · exact takeIdx_noRecL qs p hp idxs
end


/-! #### measures that bound the recursion -/

/-- A measure of trees satisfying `P` that goes down with every recursive call. -/
structure Shrinks (H : Heur) (P : Node → Prop) {α : Type} [LinearOrder α] (μ : Node → α) : Prop where
  sub : ∀ {n x}, P n → subOf n = .ok (some x) → μ x < μ n
  part : ∀ {ps d p}, P (.concat ps d) → p ∈ ps → μ p < μ (.concat ps d)
  cong : ∀ {n x x'}, P n → subOf n = .ok (some x) → P x' → μ x' ≤ μ x → μ (setSub n x') ≤ μ n
  concat : ∀ {ps d qs c}, P (.concat ps d) → List.Forall₂ (fun p q => P q ∧ μ q ≤ μ p) ps qs →
    mkConcat qs = .ok c → μ c ≤ μ (.concat ps d)
  push : ∀ {n ps d c}, P n → subOf n = .ok (some (.concat ps d)) → ¬ selects n →
    pushUnder n ps = .ok (some c) → μ c < μ n
  fuseWarps : ∀ {s t1 d1 a1 t2 d2 a2}, P (.warp (.warp s t1 d1 a1) t2 d2 a2) →
    μ (.warp s (t2 * t1) d2 a2.common) ≤ μ (.warp (.warp s t1 d1 a1) t2 d2 a2)
  nanWarp : ∀ {l tf d a}, P (.warp (.leaf l) tf d a) → l.nan = true →
    μ (nanLeaf l.id d l.names) < μ (.warp (.leaf l) tf d a)
  splitOv : ∀ {s tf d a num k}, P (.warp s tf d a) → s.numOverviews = .ok (some num) → num ≠ 0 →
    SplitLevel H tf num k → μ (mkOverview s k) < μ (.warp s tf d a)
  splitWarp : ∀ {s tf d a num k}, P (.warp s tf d a) → s.numOverviews = .ok (some num) → num ≠ 0 →
    SplitLevel H tf num k →
    μ (.warp (mkOverview s k) (tf * (ovScale k).inv) d a.common) < μ (.warp s tf d a)
  splitCrop : ∀ {s tf d a num k c}, P (.warp s tf d a) → s.numOverviews = .ok (some num) → num ≠ 0 →
    SplitLevel H tf num k → paddedCrop (mkOverview s k) 0 d.2 0 d.1 ((0, 0), (0, 0)) = .ok c →
    μ c < μ (.warp s tf d a)
  absorb : ∀ {s tf d a num r}, P (.warp s tf d a) → s.numOverviews = .ok num →
    absorb H s tf d a = .ok r → μ r ≤ μ (.warp s tf d a)
  nanCrop : ∀ {l y0 y1 x0 x1 c r}, P (.crop (.leaf l) y0 y1 x0 x1 c) → l.nan = true →
    nanCrop l y0 y1 x0 x1 c = .ok r → μ r < μ (.crop (.leaf l) y0 y1 x0 x1 c)
  fuseCrops : ∀ {s iy0 iy1 ix0 ix1 ic y0 y1 x0 x1 c r},
    P (.crop (.crop s iy0 iy1 ix0 ix1 ic) y0 y1 x0 x1 c) →
    fuseCrops s iy0 iy1 ix0 ix1 ic y0 y1 x0 x1 c = .ok r →
    μ r ≤ μ (.crop (.crop s iy0 iy1 ix0 ix1 ic) y0 y1 x0 x1 c)
  warpAfterCrop : ∀ {s tf d a y0 y1 x0 x1 c inner tf'}, P (.crop (.warp s tf d a) y0 y1 x0 x1 c) →
    warpAfterCrop s tf y0 y1 x0 x1 c = .ok (some (inner, tf')) →
    μ (.warp inner tf' (x1 - x0, y1 - y0) a.common) < μ (.crop (.warp s tf d a) y0 y1 x0 x1 c)
  dequantCrop : ∀ {s q d y0 y1 x0 x1 c}, P (.crop (.dequant s q d) y0 y1 x0 x1 c) →
    μ (mkDequant (.crop s y0 y1 x0 x1 c) q) < μ (.crop (.dequant s q d) y0 y1 x0 x1 c)
  take : ∀ {ps d y0 y1 x0 x1 c t}, P (.crop (.concat ps d) y0 y1 x0 x1 (some c)) →
    takeIdx (.concat ps d) c = .ok t → μ t < μ (.crop (.concat ps d) y0 y1 x0 x1 (some c)) ∧
      ∀ t' cr, P t' → μ t' ≤ μ t → mkCrop t' (ints y0 y1 x0 x1) none = .ok cr →
      μ cr < μ (.crop (.concat ps d) y0 y1 x0 x1 (some c))
  renorm : ∀ {ps d y0 y1 x0 x1 cr}, P (.crop (.concat ps d) y0 y1 x0 x1 none) →
    mkCrop (.concat ps d) (ints y0 y1 x0 x1) none = .ok cr →
    μ cr ≤ μ (.crop (.concat ps d) y0 y1 x0 x1 none)
  cropAfterOverview : ∀ {s y0 y1 x0 x1 c k d r}, P (.overview (.crop s y0 y1 x0 x1 c) k d) →
    cropAfterOverview H s y0 y1 x0 x1 c k = .ok r → μ r < μ (.overview (.crop s y0 y1 x0 x1 c) k d)
  warpAfterOverview : ∀ {s tf dw a k d}, P (.overview (.warp s tf dw a) k d) →
    μ (warpAfterOverview s tf k) < μ (.overview (.warp s tf dw a) k d)
  dequantOverview : ∀ {s q dq k d}, P (.overview (.dequant s q dq) k d) →
    μ (mkDequant (.overview s k d) q) < μ (.overview (.dequant s q dq) k d)
  fuseOv : ∀ {s k1 d1 k d}, P (.overview (.overview s k1 d1) k d) →
    μ (mkOverview s (k1 + k)) ≤ μ (.overview (.overview s k1 d1) k d)
  dequantWarp : ∀ {s tf dw a q d}, P (.dequant (.warp s tf dw a) q d) →
    μ (.warp (mkDequant s q) tf dw a) < μ (.dequant (.warp s tf dw a) q d)

section
variable {P : Node → Prop} {R : Node → Node → Prop} {α : Type} [LinearOrder α] {μ : Node → α}
  {rec : Node → Py Node}

/-- A result that is not the exception raised at the bound, and not above `b`. -/
def Fine (μ : Node → α) (b : α) (r : Py Node) : Prop :=
  r ≠ .error .recursion ∧ ∀ y, r = .ok y → μ y ≤ b

theorem Fine.ok {n : Node} {b : α} (h : μ n ≤ b) : Fine μ b (.ok n) :=
  ⟨by simp, fun y hy => by cases hy; exact h⟩

theorem Fine.error {e : PyErr} {b : α} (h : e ≠ .recursion) : Fine μ b (.error e) :=
  ⟨fun h' => h (by cases h'; rfl), fun y hy => by cases hy⟩

theorem Fine.error' {β : Type} {e : PyErr} {b : α} {x : Py β} (hx : x = .error e)
    (h : x ≠ .error .recursion) : Fine μ b (.error e) :=
  Fine.error fun h' => h (by rw [hx, h'])

theorem Fine.mono {b c : α} {r : Py Node} (h : Fine μ b r) (hbc : b ≤ c) : Fine μ c r :=
  ⟨h.1, fun y hy => (h.2 y hy).trans hbc⟩

/-- Recursive calls on smaller trees are fine. -/
def Calls (P : Node → Prop) (μ : Node → α) (b : α) (rec : Node → Py Node) : Prop :=
  ∀ x, P x → μ x < b → Fine μ (μ x) (rec x)

theorem Calls.fine {b c : α} (h : Calls P μ b rec) {x : Node} (hx : P x) (hb : μ x < b) (hc : μ x ≤ c) :
    Fine μ c (rec x) := (h x hx hb).mono hc

theorem finish_fine (hr : Rules H P R) (hm : Shrinks H P μ) {n : Node} {b : α} (hn : P n)
    (hs : ¬ selects n) (hc : Calls P μ b rec) (hb : μ n ≤ b)
    (hcat : ∀ ps d, n ≠ .concat ps d) : Fine μ b (finish rec n) := by
  unfold finish
  split
  · rename_i e he
    exact Fine.error' he (subOf_noRec _)
  · rename_i ps d hsub
    split
    · rename_i e he
      exact Fine.error' he (pushUnder_noRec _ _)
    · exact Fine.ok hb
    · rename_i p hp
      have h1 := (hr.push hn hsub hs hp).1
      have h2 := (hm.push hn hsub hs hp).trans_le hb
      exact hc.fine h1 h2 h2.le
  · exact Fine.ok hb

/-- On a node in normal form there is no further call. -/
theorem finish_nf_fine {n : Node} {b : α} (hnf : NF H false n) (hb : μ n ≤ b) : Fine μ b (finish rec n) := by
  unfold finish
  split
  · rename_i e he
    exact Fine.error' he (subOf_noRec _)
  · rename_i ps d hsub
    exact absurd hsub hnf.sub_not_concat
  · exact Fine.ok hb

theorem finishCrop_nf_fine {n : Node} {b : α} (hnf : NF H false n) (hb : μ n ≤ b) :
    Fine μ b (finishCrop rec n) := by
  unfold finishCrop
  split
  · rw [NF] at hnf
    exact absurd hnf.2 (by simp [underCrop])
  · exact finish_nf_fine hnf hb

theorem optConcat_fine (hr : Rules H P R) (hm : Shrinks H P μ) (hrec : RecOk H P R false rec)
    {ps : List Node} {d : Int × Int} (hn : P (.concat ps d))
    (hc : Calls P μ (μ (.concat ps d)) rec) : Fine μ (μ (.concat ps d)) (optConcat rec ps d) := by
  have hf : ∀ p ∈ ps, Fine μ (μ p) (rec p) := fun p hp => hc p (hr.parts hn p hp) (hm.part hn hp)
  unfold optConcat
  split
  · rename_i e he
    exact Fine.error' he (mapAll_noRec fun p hp => (hf p hp).1)
  · rename_i qs hqs
    split
    · rename_i c hcc
      refine Fine.ok (hm.concat hn ?_ hcc)
      exact forall₂_imp_left (mapAll_ok hqs) fun p hp q hpq =>
        ⟨(hrec p q (hr.parts hn p hp) hpq).inv, (hf p hp).2 q hpq⟩
    · exact Fine.ok le_rfl
    · rename_i e _ he
      exact Fine.error' he (mkConcat_noRec _)

theorem optDequant_fine (hr : Rules H P R) (hm : Shrinks H P μ) (hrec : RecOk H P R false rec) {s : Node}
    {q : Quantization} {d : Int × Int} (hn : P (.dequant s q d))
    (hc : Calls P μ (μ (.dequant s q d)) rec) : Fine μ (μ (.dequant s q d)) (optDequant rec s q d) := by
  have hs : P s := hr.sub hn rfl
  have hf := hc s hs (hm.sub hn rfl)
  have step : ∀ s', rec s = .ok s' → P (.dequant s' q d) ∧ μ (.dequant s' q d) ≤ μ (.dequant s q d) :=
    fun s' h => by
      have g := hrec _ _ hs h
      exact ⟨(hr.cong hn rfl g.inv g.rel).1, hm.cong hn rfl g.inv (hf.2 s' h)⟩
  unfold optDequant
  split
  · rename_i e he
    exact Fine.error' he hf.1
  · exact Fine.error (by simp)
  · rename_i x tf dw a hx
    obtain ⟨c1, c2⟩ := step _ hx
    have w1 := (hr.dequantWarp c1).1
    have w2 := (hm.dequantWarp c1).trans_le c2
    have f2 := hc _ w1 w2
    split
    · rename_i e he
      exact Fine.error' he f2.1
    · rename_i r hrr
      exact finish_nf_fine (hrec _ _ w1 hrr).nf ((f2.2 r hrr).trans w2.le)
  · rename_i s' hnd hnw hx
    obtain ⟨c1, c2⟩ := step _ hx
    exact finish_fine hr hm c1 (by simp [selects]) hc c2 (by simp)

theorem overviewRest_fine (hr : Rules H P R) (hm : Shrinks H P μ) (hrec : RecOk H P R false rec) {s : Node}
    {k : Int} {d : Int × Int} {b : α} (hn : P (.overview s k d)) (hs : NF H false s)
    (hb : μ (.overview s k d) ≤ b) (hc : Calls P μ b rec) : Fine μ b (overviewRest H rec s k d) := by
  have hsub := (hm.sub hn rfl).le.trans hb
  unfold overviewRest
  split
  · exact finish_nf_fine hs hsub
  · split
    · split
      · rename_i e he
        exact Fine.error' he (cropAfterOverview_noRec _ _ _ _ _ _ _ _)
      · rename_i m hmm
        have m1 := (hr.cropAfterOverview hn hmm).1
        have m2 := (hm.cropAfterOverview hn hmm).trans_le hb
        have f2 := hc _ m1 m2
        split
        · rename_i e he
          exact Fine.error' he f2.1
        · rename_i r hrr
          exact finish_nf_fine (hrec _ _ m1 hrr).nf ((f2.2 r hrr).trans m2.le)
    · have m1 := (hr.warpAfterOverview hn).1
      have m2 := (hm.warpAfterOverview hn).trans_le hb
      have f2 := hc _ m1 m2
      split
      · rename_i e he
        exact Fine.error' he f2.1
      · rename_i r hrr
        exact finish_nf_fine (hrec _ _ m1 hrr).nf ((f2.2 r hrr).trans m2.le)
    · have m1 := (hr.dequantOverview hn).1
      have m2 := (hm.dequantOverview hn).trans_le hb
      have f2 := hc _ m1 m2
      split
      · rename_i e he
        exact Fine.error' he f2.1
      · rename_i r hrr
        exact finish_nf_fine (hrec _ _ m1 hrr).nf ((f2.2 r hrr).trans m2.le)
    · exact finish_fine hr hm hn (by simp [selects]) hc hb (by simp)

theorem optOverview_fine (hr : Rules H P R) (hm : Shrinks H P μ) (hrec : RecOk H P R false rec) {s : Node}
    {k : Int} {d : Int × Int} (hn : P (.overview s k d)) (hc : Calls P μ (μ (.overview s k d)) rec) :
    Fine μ (μ (.overview s k d)) (optOverview H rec s k d) := by
  have hs : P s := hr.sub hn rfl
  have hf := hc s hs (hm.sub hn rfl)
  unfold optOverview
  split
  · rename_i e he
    exact Fine.error' he hf.1
  · rename_i s1 k1 d1 hx
    have g := hrec _ _ hs hx
    have c1 := (hr.cong hn rfl g.inv g.rel).1
    have c2 := hm.cong hn rfl g.inv (hf.2 _ hx)
    obtain ⟨l, rfl⟩ := g.nf.overview_sub
    have hl : NF H false (.leaf l) := by rw [NF]; trivial
    exact overviewRest_fine hr hm hrec (hr.fuseOv c1).1 hl ((hm.fuseOv c1).trans c2) hc
  · rename_i s' hno hx
    have g := hrec _ _ hs hx
    have c1 := (hr.cong hn rfl g.inv g.rel).1
    have c2 := hm.cong hn rfl g.inv (hf.2 _ hx)
    exact overviewRest_fine hr hm hrec c1 g.nf c2 hc

theorem cropConcat_fine (hr : Rules H P R) (hm : Shrinks H P μ) (hrec : RecOk H P R false rec)
    {ps : List Node} {d : Int × Int} {y0 y1 x0 x1 : Int} {c : Option (List Nat)} {b : α}
    (hn : P (.crop (.concat ps d) y0 y1 x0 x1 c)) (hb : μ (.crop (.concat ps d) y0 y1 x0 x1 c) ≤ b)
    (hc : Calls P μ b rec) : Fine μ b (cropConcat rec ps d y0 y1 x0 x1 c) := by
  unfold cropConcat
  split
  · rename_i e he
    cases c with
    | none => cases he
    | some c =>
      simp only at he
      split at he
      · rename_i e' he'
        cases he
        exact Fine.error' he' (takeIdx_noRec _ _)
      · rename_i t ht
        exact Fine.error' he (hc t (hr.take hn ht).1 ((hm.take hn ht).1.trans_le hb)).1
  · rename_i taken ht
    split
    · rename_i e he
      exact Fine.error' he (mkCrop_noRec _ _ _)
    · rename_i cr hcr
      have key : P cr ∧ μ cr ≤ b ∧ P taken ∧ ((∃ qs e, taken = .concat qs e) ∨ μ cr < b) := by
        cases c with
        | none =>
          cases ht
          exact ⟨(hr.renorm hn hcr).1, (hm.renorm hn hcr).trans hb, hr.sub hn rfl, .inl ⟨_, _, rfl⟩⟩
        | some c =>
          simp only at ht
          split at ht
          · cases ht
          · rename_i t htt
            obtain ⟨k1, k2⟩ := hr.take hn htt
            obtain ⟨l1, l2⟩ := hm.take hn htt
            have g := hrec _ _ k1 ht
            have hlt := (l2 _ _ g.inv ((hc t k1 (l1.trans_le hb)).2 _ ht) hcr).trans_le hb
            exact ⟨(k2 _ _ g.inv g.rel hcr).1, hlt.le, g.inv, .inr hlt⟩
      obtain ⟨k1, k2, k3, k4⟩ := key
      have hform := mkCrop_ints hcr
      split
      · rename_i qs dq
        split
        · rename_i e he
          exact Fine.error' he (pushUnder_noRec _ _)
        · rename_i hnone
          exact absurd hnone (pushUnder_ne_none (hr.same k3))
        · rename_i p hp
          have hsub : subOf cr = .ok (some (.concat qs dq)) := by rw [hform]; rfl
          have hsel : ¬ selects cr := by rw [hform]; simp [selects]
          have h2 := (hm.push k1 hsub hsel hp).trans_le k2
          exact hc.fine (hr.push k1 hsub hsel hp).1 h2 h2.le
      · rename_i hne
        rcases k4 with ⟨qs, e, h⟩ | h
        · exact (hne qs e h).elim
        · exact hc.fine k1 h h.le

theorem cropRest_fine (hr : Rules H P R) (hm : Shrinks H P μ) (hrec : RecOk H P R false rec) {s : Node}
    {y0 y1 x0 x1 : Int} {c : Option (List Nat)} {b : α} (hn : P (.crop s y0 y1 x0 x1 c))
    (hs : preCrop H false s) (hb : μ (.crop s y0 y1 x0 x1 c) ≤ b) (hc : Calls P μ b rec) :
    Fine μ b (cropRest rec s y0 y1 x0 x1 c) := by
  unfold cropRest
  split
  · split
    · exact Fine.ok hb
    · split
      · rename_i e he
        exact Fine.error' he (warpAfterCrop_noRec _ _ _ _ _ _ _)
      · exact Fine.ok hb
      · rename_i inner tf' hz
        have w1 := (hr.warpAfterCrop hn hz).1
        have w2 := (hm.warpAfterCrop hn hz).trans_le hb
        have f2 := hc _ w1 w2
        split
        · rename_i e he
          exact Fine.error' he f2.1
        · rename_i r hrr
          exact finishCrop_nf_fine (hrec _ _ w1 hrr).nf ((f2.2 r hrr).trans w2.le)
  · have w1 := (hr.dequantCrop hn).1
    have w2 := (hm.dequantCrop hn).trans_le hb
    have f2 := hc _ w1 w2
    split
    · rename_i e he
      exact Fine.error' he f2.1
    · rename_i r hrr
      exact finishCrop_nf_fine (hrec _ _ w1 hrr).nf ((f2.2 r hrr).trans w2.le)
  · rename_i hnw hnd
    cases s with
    | concat ps d => exact cropConcat_fine hr hm hrec hn hb hc
    | crop _ _ _ _ _ _ => exact hs.elim
    | warp _ _ _ _ => exact (hnw _ _ _ _ rfl).elim
    | dequant _ _ _ => exact (hnd _ _ _ rfl).elim
    | leaf l => exact Fine.ok hb
    | overview x k d => exact Fine.ok hb

theorem optCrop_fine (hr : Rules H P R) (hm : Shrinks H P μ) (hrec : RecOk H P R false rec) {s : Node}
    {y0 y1 x0 x1 : Int} {c : Option (List Nat)} (hn : P (.crop s y0 y1 x0 x1 c))
    (hc : Calls P μ (μ (.crop s y0 y1 x0 x1 c)) rec) :
    Fine μ (μ (.crop s y0 y1 x0 x1 c)) (optCrop rec s y0 y1 x0 x1 c) := by
  have hs : P s := hr.sub hn rfl
  have hf := hc s hs (hm.sub hn rfl)
  unfold optCrop
  split
  · rename_i e he
    exact Fine.error' he hf.1
  · rename_i s' hx
    have g := hrec _ _ hs hx
    have c1 := (hr.cong hn rfl g.inv g.rel).1
    have c2 := hm.cong hn rfl g.inv (hf.2 _ hx)
    simp only [setSub] at c1 c2
    cases s' with
    | crop s1 iy0 iy1 ix0 ix1 ic =>
      simp only
      split
      · rename_i e he
        exact Fine.error' he (fuseCrops_noRec _ _ _ _ _ _ _ _ _ _ _)
      · rename_i s2 y0' y1' x0' x1' c' hfu
        have f1 := (hr.fuseCrops c1 hfu).1
        have f2 := (hm.fuseCrops c1 hfu).trans c2
        obtain ⟨_, _, _, _, _, e⟩ := fuseCrops_form hfu
        cases e
        have hnf := g.nf
        rw [NF] at hnf
        split
        · rename_i l hl
          split at hl
          · rename_i l'
            split at hl
            · rename_i hl2
              have : l'.nan = false := hnf.2
              rw [this] at hl2
              cases hl2
            · cases hl
          · cases hl
        · refine cropRest_fine hr hm hrec f1 ?_ f2 hc
          cases s1 with
          | leaf l => exact hnf.2
          | concat _ _ => exact hnf.2.elim
          | crop _ _ _ _ _ _ => exact hnf.2.elim
          | warp _ _ _ _ => exact hnf.1
          | dequant _ _ _ => exact hnf.2.elim
          | overview _ _ _ => exact hnf.1
      · rename_i n hne hfu
        obtain ⟨_, _, _, _, _, e⟩ := fuseCrops_form hfu
        exact (hne _ _ _ _ _ _ e).elim
    | leaf l =>
      simp only
      split
      · rename_i l' hl
        split at hl
        · rename_i hnan
          cases hl
          split
          · rename_i e he
            exact Fine.error' he (nanCrop_noRec _ _ _ _ _ _)
          · rename_i r hrr
            have h2 := (hm.nanCrop c1 hnan hrr).trans_le c2
            exact hc.fine (hr.nanCrop c1 hnan hrr).1 h2 h2.le
        · cases hl
      · rename_i hl
        refine cropRest_fine hr hm hrec c1 ?_ c2 hc
        cases hln : l.nan with
        | false => exact hln
        | true => rw [hln] at hl; simp at hl
    | concat _ _ => exact cropRest_fine hr hm hrec c1 trivial c2 hc
    | warp _ _ _ _ => exact cropRest_fine hr hm hrec c1 g.nf c2 hc
    | dequant _ _ _ => exact cropRest_fine hr hm hrec c1 g.nf c2 hc
    | overview _ _ _ => exact cropRest_fine hr hm hrec c1 g.nf c2 hc

theorem split_fine (hr : Rules H P R) (hm : Shrinks H P μ) {s : Node}
    {tf : Affine} {d : Int × Int} {a : Algo} {b : α} (hn : P (.warp s tf d a))
    (hb : μ (.warp s tf d a) ≤ b) (hc : Calls P μ b rec) :
    split H rec s tf d a ≠ .error .recursion ∧ ∀ m, split H rec s tf d a = .ok (some m) → μ m < b := by
  unfold split
  split
  · rename_i e he
    have := numOverviews_noRec s
    rw [he] at this
    exact ⟨by simpa using this, by simp⟩
  · simp
  · rename_i num hnum
    split
    · simp
    · rename_i hne
      split
      · simp
      · rename_i hcan
        simp only
        split
        · simp
        · rename_i hnd
          have hsl : SplitLevel H tf num (min num (H.downs tf)) := ⟨by simpa using hcan, rfl, hnd⟩
          split
          · rename_i hid
            split
            · split
              · rename_i e he
                have := paddedCrop_noRec (mkOverview s (min num (H.downs tf))) 0 d.2 0 d.1 ((0, 0), (0, 0))
                rw [he] at this
                exact ⟨by simpa using this, by simp⟩
              · rename_i c hcc
                have k1 := (hr.splitCrop hn hnum hne hsl hid hcc).1
                have k2 := (hm.splitCrop hn hnum hne hsl hcc).trans_le hb
                have f2 := hc _ k1 k2
                split
                · rename_i e he
                  have := f2.1
                  rw [he] at this
                  exact ⟨by simpa using this, by simp⟩
                · rename_i r hrr
                  refine ⟨by simp, fun m h => ?_⟩
                  cases h
                  exact (f2.2 _ hrr).trans_lt k2
            · refine ⟨by simp, fun m h => ?_⟩
              cases h
              exact (hm.splitOv hn hnum hne hsl).trans_le hb
          · refine ⟨by simp, fun m h => ?_⟩
            cases h
            exact (hm.splitWarp hn hnum hne hsl).trans_le hb

theorem warpRest_fine (hr : Rules H P R) (hm : Shrinks H P μ) (hrec : RecOk H P R false rec) {s : Node}
    {tf : Affine} {d : Int × Int} {a : Algo} {b : α} (hn : P (.warp s tf d a))
    (hb : μ (.warp s tf d a) ≤ b) (hc : Calls P μ b rec) : Fine μ b (warpRest H rec s tf d a) := by
  have hps : P s := hr.sub hn rfl
  have hsb := (hm.sub hn rfl).trans_le hb
  by_cases hcat : ∃ ps e, s = .concat ps e
  · obtain ⟨ps, e, rfl⟩ := hcat
    unfold warpRest
    split
    · exact Fine.ok hsb.le
    · dsimp only
      split
      · rename_i e he
        exact Fine.error' he (pushUnder_noRec _ _)
      · exact Fine.ok hb
      · rename_i p hp
        have h2 := (hm.push hn rfl (by simp [selects]) hp).trans_le hb
        exact hc.fine (hr.push hn rfl (by simp [selects]) hp).1 h2 h2.le
  · rw [warpRest_eq H rec tf d a (fun ps e h => hcat ⟨ps, e, h⟩)]
    split
    · exact Fine.ok hsb.le
    · split
      · rename_i l hl
        split at hl
        · split at hl
          · rename_i hnan
            cases hl
            have h2 := (hm.nanWarp hn hnan).trans_le hb
            exact hc.fine (hr.nanWarp hn hnan).1 h2 h2.le
          · cases hl
        · cases hl
      · obtain ⟨s1, s2⟩ := split_fine hr hm hn hb hc
        unfold andThen
        split
        · rename_i e he
          exact Fine.error' he s1
        · rename_i o hsp
          unfold afterSplit
          cases o with
          | none =>
            have hnum : ∃ num, s.numOverviews = .ok num := by
              unfold split at hsp
              split at hsp
              · cases hsp
              · rename_i e; exact ⟨_, e⟩
              · rename_i e; exact ⟨_, e⟩
            obtain ⟨num, hnum⟩ := hnum
            exact ⟨absorb_noRec _ _ _ _ _, fun y hy => (hm.absorb hn hnum hy).trans hb⟩
          | some new =>
            have m1 := (split_ok hr hrec hn hsp).1
            have m2 := s2 new hsp
            dsimp only
            split
            · rename_i e he
              exact Fine.error' he (subOf_noRec _)
            · exact Fine.error (by simp)
            · rename_i x hx
              have px := hr.sub m1 hx
              have f2 := hc _ px ((hm.sub m1 hx).trans m2)
              split
              · rename_i e he
                exact Fine.error' he f2.1
              · rename_i x' hx'
                have g := hrec _ _ px hx'
                have h2 := (hm.cong m1 hx g.inv (f2.2 _ hx')).trans_lt m2
                exact hc.fine (hr.cong m1 hx g.inv g.rel).1 h2 h2.le

theorem optWarp_fine (hr : Rules H P R) (hm : Shrinks H P μ) (hrec : RecOk H P R false rec) {s : Node}
    {tf : Affine} {d : Int × Int} {a : Algo} (hn : P (.warp s tf d a))
    (hc : Calls P μ (μ (.warp s tf d a)) rec) :
    Fine μ (μ (.warp s tf d a)) (optWarp H rec s tf d a) := by
  have hs : P s := hr.sub hn rfl
  have hf := hc s hs (hm.sub hn rfl)
  unfold optWarp
  split
  · rename_i e he
    exact Fine.error' he hf.1
  · rename_i s1 tf1 d1 a1 hx
    have g := hrec _ _ hs hx
    have c1 := (hr.cong hn rfl g.inv g.rel).1
    have c2 := hm.cong hn rfl g.inv (hf.2 _ hx)
    exact warpRest_fine hr hm hrec (hr.fuseWarps c1).1 ((hm.fuseWarps c1).trans c2) hc
  · rename_i s' hnw hx
    have g := hrec _ _ hs hx
    exact warpRest_fine hr hm hrec (hr.cong hn rfl g.inv g.rel).1 (hm.cong hn rfl g.inv (hf.2 _ hx)) hc

theorem optStep_fine (hr : Rules H P R) (hm : Shrinks H P μ) (hrec : RecOk H P R false rec) {n : Node}
    (hn : P n) (hc : Calls P μ (μ n) rec) : Fine μ (μ n) (optStep H rec n) := by
  cases n with
  | leaf l => exact Fine.ok le_rfl
  | concat ps d => exact optConcat_fine hr hm hrec hn hc
  | warp s tf d a => exact optWarp_fine hr hm hrec hn hc
  | crop s y0 y1 x0 x1 c => exact optCrop_fine hr hm hrec hn hc
  | overview s k d => exact optOverview_fine hr hm hrec hn hc
  | dequant s q d => exact optDequant_fine hr hm hrec hn hc

/-- With a measure that goes down along the recursion, `optimize` ends. -/
theorem Shrinks.ends [WellFoundedLT α] (hr : Rules H P R) (hm : Shrinks H P μ) {n : Node} (hn : P n) :
    ∃ r, Ends H n r ∧ ∀ n', r = .ok n' → μ n' ≤ μ n := by
  have hrec : RecOk H P R false (lim H) := by
    intro x x' hx h
    obtain ⟨_, F, hF⟩ := lim_ends (n := x) (H := H) (by rw [h]; simp)
    rw [h] at hF
    exact opt_good hr (by simp) F x x' hx (hF F le_rfl)
  have key : ∀ b : α, ∀ x, P x → μ x = b → Fine μ b (lim H x) := by
    intro b
    induction b using WellFoundedLT.induction with
    | ind b ih =>
      intro x hx e
      subst e
      have := optStep_fine hr hm hrec hx (fun y hy hlt => ih _ hlt y hy rfl)
      rw [lim_step this.1]
      exact this
  obtain ⟨h1, h2⟩ := key _ n hn rfl
  exact ⟨_, lim_ends h1, h2⟩

end

end Tree
end Verif
