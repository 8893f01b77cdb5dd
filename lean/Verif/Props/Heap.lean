/-
C38 and C39: `optimize` with its memo and with shared metadata.
-/
import Verif.HeapLemmas
import Verif.HeapFrame
import Verif.SizeRules
import Verif.Props.Opt

namespace Verif.Props

open Tree Helpers Node

/-! #### specification -/

mutual
/-- There is no dequantization in the tree. -/
def NoDequant : Obj → Prop
  | .leaf _ => True
  | .concat ps _ => NoDequantL ps
  | .warp s _ _ _ => NoDequant s
  | .crop s _ _ _ _ _ => NoDequant s
  | .overview s _ _ => NoDequant s
  | .dequant _ _ _ => False
def NoDequantL : List Obj → Prop
  | [] => True
  | p :: ps => NoDequant p ∧ NoDequantL ps
end

mutual
/-- No dequantization is above or below an overview, or above a leaf that has overviews. -/
def Separate : Obj → Prop
  | .leaf _ => True
  | .concat ps _ => SeparateL ps
  | .warp s _ _ _ => Separate s
  | .crop s _ _ _ _ _ => Separate s
  | .overview s _ _ => NoDequant s
  | .dequant s _ _ => NoOv (erase s)
def SeparateL : List Obj → Prop
  | [] => True
  | p :: ps => Separate p ∧ SeparateL ps
end

mutual
/-- The sizes shown by the dequantizations are those in the dictionaries. -/
def Shows (sizes : List (Int × Int)) : Obj → Prop
  | .leaf _ => True
  | .concat ps _ => ShowsL sizes ps
  | .warp s _ _ _ => Shows sizes s
  | .crop s _ _ _ _ _ => Shows sizes s
  | .overview s _ _ => Shows sizes s
  | .dequant s q d => sizes[q.2]? = some d ∧ Shows sizes s
def ShowsL (sizes : List (Int × Int)) : List Obj → Prop
  | [] => True
  | p :: ps => Shows sizes p ∧ ShowsL sizes ps
end

mutual
theorem ap_noDequant {σ : List (Int × Int)} : ∀ n : Obj, NoDequant n → Ap σ false true n
  | .leaf _, _ => fun h => by cases h
  | .concat ps _, h => ap_noDequantL ps h
  | .warp s _ _ _, h => ap_noDequant s h
  | .crop s _ _ _ _ _, h => ap_noDequant s h
  | .overview s _ _, h => ⟨rfl, ap_noDequant s h⟩
  | .dequant _ _ _, h => h.elim
theorem ap_noDequantL {σ : List (Int × Int)} : ∀ ps : List Obj, NoDequantL ps → ApL σ false true ps
  | [], _ => trivial
  | p :: ps, h => ⟨ap_noDequant p h.1, ap_noDequantL ps h.2⟩
end

mutual
theorem ap_noOv {σ : List (Int × Int)} : ∀ n : Obj, Shows σ n → NoOv (erase n) → Ap σ true false n
  | .leaf _, _, h => fun _ => h
  | .concat ps _, h', h => ap_noOvL ps h' h
  | .warp s _ _ _, h', h => ap_noOv s h' h
  | .crop s _ _ _ _ _, h', h => ap_noOv s h' h
  | .overview s _ _, _, h => h.elim
  | .dequant s _ _, h', h => ⟨rfl, h'.1, ap_noOv s h'.2 h⟩
theorem ap_noOvL {σ : List (Int × Int)} : ∀ ps : List Obj, ShowsL σ ps → NoOvL (eraseL ps) → ApL σ true false ps
  | [], _, _ => trivial
  | p :: ps, h', h => ⟨ap_noOv p h'.1 h.1, ap_noOvL ps h'.2 h.2⟩
end

mutual
theorem ap_of {σ : List (Int × Int)} : ∀ n : Obj, Shows σ n → Separate n → Ap σ false false n
  | .leaf _, _, _ => fun h => by cases h
  | .concat ps _, h', h => ap_ofL ps h' h
  | .warp s _ _ _, h', h => ap_of s h' h
  | .crop s _ _ _ _ _, h', h => ap_of s h' h
  | .overview s _ _, _, h => ⟨rfl, ap_noDequant s h⟩
  | .dequant s _ _, h', h => ⟨rfl, h'.1, ap_noOv s h'.2 h⟩
theorem ap_ofL {σ : List (Int × Int)} : ∀ ps : List Obj, ShowsL σ ps → SeparateL ps → ApL σ false false ps
  | [], _, _ => trivial
  | p :: ps, h', h => ⟨ap_of p h'.1 h.1, ap_ofL ps h'.2 h.2⟩
end

mutual
/-- No overview, and no leaf with overviews below a warp.  The flag says that there is a warp above. -/
def Quiet : Bool → Obj → Prop
  | w, .leaf l => w = true → l.overviews = none ∨ l.overviews = some 0
  | w, .concat ps _ => QuietL w ps
  | _, .warp s _ _ _ => Quiet true s
  | w, .crop s _ _ _ _ _ => Quiet w s
  | _, .overview _ _ _ => False
  | w, .dequant s _ _ => Quiet w s
def QuietL : Bool → List Obj → Prop
  | _, [] => True
  | w, p :: ps => Quiet w p ∧ QuietL w ps
end

mutual
/-- Below each dequantization with dictionary `c` there is no overview and no warp above a leaf with
overviews.  A dictionary that does not occur is undisturbed. -/
def Undisturbed (c : Cell) : Obj → Prop
  | .leaf _ => True
  | .concat ps _ => UndisturbedL c ps
  | .warp s _ _ _ => Undisturbed c s
  | .crop s _ _ _ _ _ => Undisturbed c s
  | .overview s _ _ => Undisturbed c s
  | .dequant s q _ => (q.2 = c → Quiet false s) ∧ Undisturbed c s
def UndisturbedL (c : Cell) : List Obj → Prop
  | [] => True
  | p :: ps => Undisturbed c p ∧ UndisturbedL c ps
end

mutual
theorem quiet_still {prot : Cell → Bool} : ∀ {w : Bool} (n : Obj), Quiet w n → Still prot (some w) n
  | _, .leaf _, h => fun e => h (by cases e; rfl)
  | _, .concat ps _, h => quiet_stillL ps h
  | _, .warp s _ _ _, h => quiet_still (w := true) s h
  | _, .crop s _ _ _ _ _, h => quiet_still s h
  | _, .overview _ _ _, h => h.elim
  | _, .dequant s q _, h => by
    rw [Still]
    split <;> exact quiet_still s h
theorem quiet_stillL {prot : Cell → Bool} : ∀ {w : Bool} (ps : List Obj), QuietL w ps → StillL prot (some w) ps
  | _, [], _ => trivial
  | _, p :: ps, h => ⟨quiet_still p h.1, quiet_stillL ps h.2⟩
end

mutual
theorem undisturbed_still {c : Cell} : ∀ n : Obj, Undisturbed c n → Still (fun i => i == c) none n
  | .leaf _, _ => fun e => by cases e
  | .concat ps _, h => undisturbed_stillL ps h
  | .warp s _ _ _, h => undisturbed_still s h
  | .crop s _ _ _ _ _, h => undisturbed_still s h
  | .overview s _ _, h => ⟨rfl, undisturbed_still s h⟩
  | .dequant s q _, h => by
    rw [Still]
    split
    · rename_i e
      exact quiet_still s (h.1 (beq_iff_eq.1 e))
    · exact undisturbed_still s h.2
theorem undisturbed_stillL {c : Cell} : ∀ ps : List Obj, UndisturbedL c ps → StillL (fun i => i == c) none ps
  | [], _ => trivial
  | p :: ps, h => ⟨undisturbed_still p h.1, undisturbed_stillL ps h.2⟩
end

/-- `optimize` on one tree after the other, each with a context of its own.  The trees may share nodes with
each other and with the results of earlier calls; the result is the final contents of the dictionaries. -/
def optimizeEach (H : Heur) : List (Ident × Nat × Obj) → List (Int × Int) → List (Int × Int)
  | [], sizes => sizes
  | (ident, fuel, n) :: rest, sizes => optimizeEach H rest (optimize H ident fuel sizes n).2

/-! ### C38 -/

/-- C38: `optimize`, whether it returns or raises, leaves a metadata dictionary as it is, unless the
dictionary belongs to a dequantization above an overview or above a warp above a leaf with overviews.  This
holds for all trees, all sharing and all tolerances, and no dictionary disappears.  Missing: these
dequantizations (`C38_violated`). -/
theorem C38_partial (H : Heur) (ident : Ident) (fuel : Nat) (sizes : List (Int × Int)) (n : Obj) (c : Cell)
    (hc : c < sizes.length) (hn : Undisturbed c n) :
    (optimize H ident fuel sizes n).2[c]? = sizes[c]? := by
  have h := leaves (prot := fun i => i == c) H ident fuel ⟨sizes, [], 0⟩ n none
    ⟨fun i hi => by rw [beq_iff_eq.1 hi]; exact hc, fun e he => by simp at he⟩ (undisturbed_still n hn)
  exact h.same c (by simp)

/-- C38 for sequences of calls. -/
theorem C38_sequence_partial (H : Heur) (c : Cell) : ∀ (calls : List (Ident × Nat × Obj))
    (sizes : List (Int × Int)), c < sizes.length → (∀ k ∈ calls, Undisturbed c k.2.2) →
    (optimizeEach H calls sizes)[c]? = sizes[c]?
  | [], _, _, _ => rfl
  | (ident, fuel, n) :: rest, sizes, hc, h => by
    have h1 := C38_partial H ident fuel sizes n c hc (h (ident, fuel, n) (by simp))
    have hc' : c < (optimize H ident fuel sizes n).2.length := by
      by_contra hlt
      rw [List.getElem?_eq_none (not_lt.1 hlt), List.getElem?_eq_getElem hc] at h1
      cases h1
    rw [optimizeEach, C38_sequence_partial H c rest _ hc' fun k hk => h k (by simp [hk]), h1]

mutual
/-- The dictionaries in a tree. -/
def cells : Obj → List Cell
  | .leaf _ => []
  | .concat ps _ => cellsL ps
  | .warp s _ _ _ => cells s
  | .crop s _ _ _ _ _ => cells s
  | .overview s _ _ => cells s
  | .dequant s q _ => q.2 :: cells s
def cellsL : List Obj → List Cell
  | [] => []
  | p :: ps => cells p ++ cellsL ps
end

mutual
theorem refresh_cells {σ σ' : List (Int × Int)} : ∀ n : Obj, (∀ c ∈ cells n, σ'[c]? = σ[c]?) →
    refresh σ' n = refresh σ n
  | .leaf _, _ => rfl
  | .concat ps _, h => by rw [refresh, refresh, refresh_cellsL ps h]
  | .warp s _ _ _, h => by rw [refresh, refresh, refresh_cells s h]
  | .crop s _ _ _ _ _, h => by rw [refresh, refresh, refresh_cells s h]
  | .overview s _ _, h => by rw [refresh, refresh, refresh_cells s h]
  | .dequant s q d, h => by
    have h1 := h q.2 (by simp [cells])
    rw [refresh, refresh, refresh_cells s fun c hc => h c (by simp [cells, hc]),
      List.getD_eq_getElem?_getD, List.getD_eq_getElem?_getD, h1]
theorem refresh_cellsL {σ σ' : List (Int × Int)} : ∀ ps : List Obj, (∀ c ∈ cellsL ps, σ'[c]? = σ[c]?) →
    refreshL σ' ps = refreshL σ ps
  | [], _ => rfl
  | p :: ps, h => by
    rw [refreshL, refreshL, refresh_cells p fun c hc => h c (by simp [cellsL, hc]),
      refresh_cellsL ps fun c hc => h c (by simp [cellsL, hc])]
end

/-- C38 for other objects: a tree that exists while others are optimized looks the same afterwards, if each
of its dictionaries is undisturbed in them; for example if it shares no dequantization with them. -/
theorem C38_bystander_partial (H : Heur) (calls : List (Ident × Nat × Obj)) (sizes : List (Int × Int)) (t : Obj)
    (ht : ∀ c ∈ cells t, c < sizes.length ∧ ∀ k ∈ calls, Undisturbed c k.2.2) :
    refresh (optimizeEach H calls sizes) t = refresh sizes t :=
  refresh_cells t fun c hc => C38_sequence_partial H c calls sizes (ht c hc).1 (ht c hc).2

/-- An 8x8 image with one overview. -/
def sharp : Leaf := ⟨0, (8, 8), 1, none, some 1, false⟩

/-- Some quantization. -/
def quant : Quantization := ⟨0, 1, 0, 255, none⟩

/-- A dequantized image with dictionary 0. -/
def dequantized : Obj := .dequant (.leaf sharp) (quant, 0) (8, 8)

/-- A dequantized image at half the size. -/
def halved : Obj := mkWarp dequantized (.scale (1 / 2)) none .default

example : Undisturbed 0 halved ∧ cells halved = [0] ∧
    holds (optimize Heur.code (fun i _ => i) 40 [(8, 8)] halved).1
      (fun r => decide (r = .dequant (.overview (.leaf sharp) 1 (4, 4)) (quant, 1) (4, 4))) = true ∧
    (optimize Heur.code (fun i _ => i) 40 [(8, 8)] halved).2 = [(8, 8), (4, 4)] :=
  ⟨⟨fun _ => (fun h => by cases h), trivial⟩, rfl, by decide +kernel, by decide +kernel⟩

/-- A dequantized overview with dictionary 0. -/
def softened : Obj := .dequant (mkOverview (.leaf sharp) 1) (quant, 0) (4, 4)

/-- C38 fails for dequantizations above overviews: optimizing an enlarged view of a dequantized overview
changes the size that the dequantized overview announces. -/
theorem C38_violated :
    refresh [(4, 4)] softened = softened ∧ softened.dsize = (4, 4) ∧
    (refresh (optimize Heur.code (fun i _ => i) 40 [(4, 4)]
      (mkWarp softened (.scale 2) none .default)).2 softened).dsize = (8, 8) :=
  ⟨rfl, rfl, by decide +kernel⟩

/-- A dequantized piece of an overview with dictionary 0. -/
def softenedPiece : Obj := .dequant (.crop (mkOverview (.leaf sharp) 1) 1 3 0 2 none) (quant, 0) (2, 2)

/-- Also with a crop between the overview and the dequantization; the dictionary then has the size of the
piece of the file that is read, here six columns and seven rows, although the piece has two of each. -/
theorem C38_crop_violated :
    refresh [(2, 2)] softenedPiece = softenedPiece ∧ softenedPiece.dsize = (2, 2) ∧
    (refresh (optimize Heur.code (fun i _ => i) 40 [(2, 2)]
      (mkWarp softenedPiece (.scale 2) none .default)).2 softenedPiece).dsize = (6, 7) :=
  ⟨rfl, rfl, by decide +kernel⟩

/-! ### C39 -/

/-- C39: for a tree in which no dequantization is above or below an overview or above a leaf with overviews,
optimizing with the memo gives the tree and raises the exceptions of optimizing without it, whatever is
shared; and the memo needs no deeper recursion.  Missing: the other trees, on which the assignments
to metadata are visible through shared nodes (`C39_violated`). -/
theorem C39_partial (H : Heur) (ident : Ident) (fuel : Nat) (sizes : List (Int × Int)) (n : Obj)
    (hs : Shows sizes n) (hn : Separate n) (h : opt H fuel (erase n) ≠ .error .recursion) :
    (optimize H ident fuel sizes n).1.map erase = opt H fuel (erase n) := by
  have t := track H ident fuel ⟨sizes, [], 0⟩ n false false (fun e he => by simp at he) (ap_of n hs hn)
  have hl := t.mono.resolve_left h
  rw [hl]
  unfold optimize
  cases hX : optM H ident fuel n ⟨sizes, [], 0⟩ with
  | mk r st =>
    rw [hX] at t
    cases r with
    | ok a =>
      obtain ⟨b, e, hv⟩ := t.ok a rfl
      rw [e]
      exact (congrArg Except.ok hv.1).symm
    | error e =>
      by_cases he : e = .recursion
      · subst he
        exact absurd (t.out rfl) h
      · rw [t.err e rfl he]
        rfl

/-- C39 in the other direction: if optimizing with the memo ends, so does optimizing without it, possibly
with deeper recursion, and with the same result. -/
theorem C39_converse_partial (H : Heur) (ident : Ident) (fuel : Nat) (sizes : List (Int × Int)) (n : Obj)
    (hs : Shows sizes n) (hn : Separate n) (h : (optimize H ident fuel sizes n).1 ≠ .error .recursion) :
    ∃ F, ∀ f, F ≤ f → opt H f (erase n) = (optimize H ident fuel sizes n).1.map erase := by
  have t := track H ident fuel ⟨sizes, [], 0⟩ n false false (fun e he => by simp at he) (ap_of n hs hn)
  have key : lim H (erase n) = (optimize H ident fuel sizes n).1.map erase ∧
      lim H (erase n) ≠ .error .recursion := by
    unfold optimize at h ⊢
    cases hX : optM H ident fuel n ⟨sizes, [], 0⟩ with
    | mk r st =>
      rw [hX] at t h
      cases r with
      | ok a =>
        obtain ⟨b, e, hv⟩ := t.ok a rfl
        rw [e]
        exact ⟨congrArg Except.ok hv.1, fun h => by cases h⟩
      | error e =>
        have he : e ≠ .recursion := fun he => h (by subst he; rfl)
        rw [t.err e rfl he]
        exact ⟨rfl, fun h => he (by cases h; rfl)⟩
  rw [← key.1]
  exact (lim_ends key.2).2

/-- An 8x8 image without overviews. -/
def plain : Leaf := ⟨0, (8, 8), 1, none, none, false⟩

/-- A dequantized image with dictionary 0. -/
def base : Obj := .dequant (.leaf plain) (quant, 0) (8, 8)

/-- The same part of the same dequantized image twice, and the overview of another image. -/
def views : Obj :=
  .concat [.crop base 0 4 0 4 none, .crop base 0 4 0 4 none, mkOverview (.leaf sharp) 1] (4, 4)

example : Shows [(8, 8)] views ∧ Separate views ∧
    holds (opt Heur.code 40 (erase views)) (fun _ => true) = true ∧
    holds (optimize Heur.code (fun _ _ => 0) 40 [(8, 8)] views).1
      (fun r => decide (cells r = [1, 1])) = true ∧
    holds (optimize Heur.code (fun i _ => i) 40 [(8, 8)] views).1
      (fun r => decide (cells r = [1, 2])) = true := by
  refine ⟨⟨⟨rfl, trivial⟩, ⟨rfl, trivial⟩, trivial, trivial⟩, ⟨?_, ?_, trivial, trivial⟩, ?_, ?_, ?_⟩
  · exact .inl rfl
  · exact .inl rfl
  all_goals decide +kernel

/-- A dequantized overview, twice: enlarged, and with a border. -/
def enlargedAndPadded : Obj :=
  .concat [mkWarp softened (.scale 2) none .default, mkWarp softened .id (some (8, 8)) .default] (8, 8)

/-- The first part, optimized. -/
def enlarged : Node := .warp (.dequant (.leaf sharp) quant (8, 8)) .id (8, 8) .default

/-- C39 fails if a dequantized overview is shared: the assignment to its metadata when the first part is
optimized makes the second part look as if it had the right size already.  Its padding is dropped, and the
optimized image cannot be finalized, although without the memo it can, to an array of the announced shape. -/
theorem C39_violated :
    Shows [(4, 4)] enlargedAndPadded ∧ ∃ r m,
      (optimize Heur.code (fun _ _ => 0) 40 [(4, 4)] enlargedAndPadded).1 = .ok r ∧
      opt Heur.code 40 (erase enlargedAndPadded) = .ok m ∧
      ∀ {V : Type} (E : Env V), Env.Shaped E → (E.img 0).h = 8 → (E.img 0).w = 8 →
        fin E (erase r) = .error .valueError ∧ ∃ i, fin E m = .ok i ∧ i.h = 8 ∧ i.w = 8 := by
  refine ⟨⟨⟨rfl, trivial⟩, ⟨rfl, trivial⟩, trivial⟩, ?_⟩
  obtain ⟨r, h1, h2⟩ := holds_ok (x := (optimize Heur.code (fun _ _ => 0) 40 [(4, 4)] enlargedAndPadded).1)
    (f := fun r => decide (erase r = .concat [enlarged, .dequant (mkOverview (.leaf sharp) 1) quant (8, 8)] (8, 8)))
    (by decide +kernel)
  obtain ⟨m, h3, h4⟩ := holds_ok (x := opt Heur.code 40 (erase enlargedAndPadded))
    (f := fun m => decide (m = .concat [enlarged, .warp (.dequant (mkOverview (.leaf sharp) 1) quant (4, 4)) .id
      (8, 8) .default] (8, 8))) (by decide +kernel)
  refine ⟨r, m, h1, h3, fun E hE hh hw => ?_⟩
  rw [of_decide_eq_true h2, of_decide_eq_true h4]
  have o := hE.overview (.leaf sharp) 1 (E.img 0)
  rw [hh, hw] at o
  have o1 : (E.overview (.leaf sharp) 1 (E.img 0)).h = 4 :=
    (congrArg Prod.fst o).trans (show (ovSize 1 8).toNat = 4 by decide +kernel)
  have w1 : ∀ i, (E.warp .id (8, 8) .default i).h = 8 := fun i => congrArg Prod.fst (hE.warp .id (8, 8) .default i)
  have w2 : ∀ i, (E.warp .id (8, 8) .default i).w = 8 := fun i =>
    congrArg (fun t => t.2.1) (hE.warp .id (8, 8) .default i)
  obtain ⟨i, hi⟩ : ∃ i, fin E enlarged = .ok (E.warp .id (8, 8) .default i) := ⟨_, rfl⟩
  obtain ⟨j, hj, hj'⟩ : ∃ j : Img _, (∀ d, fin E (.dequant (mkOverview (.leaf sharp) 1) quant d) = .ok j) ∧
      j.h = (E.overview (.leaf sharp) 1 (E.img 0)).h := ⟨_, fun _ => rfl, rfl⟩
  rw [o1] at hj'
  have hp : fin E (.warp (.dequant (mkOverview (.leaf sharp) 1) quant (4, 4)) .id (8, 8) .default) =
      .ok (E.warp .id (8, 8) .default j) := by
    rw [fin, hj]
    rfl
  constructor
  · rw [fin, finL, finL, finL, hi, hj]
    simp only [catAll, w1, w2, hj']
    rw [if_neg fun h => absurd h.1 (by decide)]
  · refine ⟨(E.warp .id (8, 8) .default i).cat (E.warp .id (8, 8) .default j), ?_, w1 i, w2 i⟩
    rw [fin, finL, finL, finL, hi, hp]
    simp only [catAll, w1, w2, and_self, if_true]

end Verif.Props
