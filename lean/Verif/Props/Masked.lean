/-
C64: masked pixels stay masked.
-/
import Verif.Masked
import Verif.Total
import Verif.Props.Check

namespace Verif.Props

open Tree Node Helpers

variable {V W : Type}

/-- `Except.map` for images. -/
def onImg (f : V → W) : Py (Img V) → Py (Img W)
  | .error e => .error e
  | .ok i => .ok (i.map f)

theorem slice_map (f : V → W) (i : Img V) (ysl xsl : Option Int × Option Int) :
    (i.map f).slice ysl xsl = (i.slice ysl xsl).map f := rfl

theorem select_map (f : V → W) (i : Img V) (c : Option (List Nat)) :
    (i.map f).select c = onImg f (i.select c) := by
  cases c with
  | none => rfl
  | some c =>
    show (if (c.all fun j => decide (j < i.n)) = true then _ else _) = _
    unfold Img.select
    by_cases h : (c.all fun j => decide (j < i.n)) = true
    · simp only [h, if_true]; rfl
    · simp only [h]; rfl

theorem cat_px (a b : Img V) (y x k : Nat) :
    (a.cat b).px y x k = if k < a.n then a.px y x k else b.px y x (k - a.n) := rfl

theorem cat_map (f : V → W) (a b : Img V) : (a.map f).cat (b.map f) = (a.cat b).map f := by
  have : ∀ y x k, ((a.map f).cat (b.map f)).px y x k = ((a.cat b).map f).px y x k := by
    intro y x k
    show (if k < a.n then f (a.px y x k) else f (b.px y x (k - a.n))) = f ((a.cat b).px y x k)
    rw [cat_px]
    by_cases h : k < a.n
    · rw [if_pos h, if_pos h]
    · rw [if_neg h, if_neg h]
  have e : ((a.map f).cat (b.map f)).px = ((a.cat b).map f).px := by funext y x k; exact this y x k
  show Img.mk _ _ _ ((a.map f).cat (b.map f)).px = Img.mk _ _ _ ((a.cat b).map f).px
  rw [e]
  rfl

theorem catAll_map (f : V → W) : ∀ as : List (Img V), catAll (as.map (Img.map f)) = onImg f (catAll as)
  | [] => rfl
  | [a] => rfl
  | a :: b :: as => by
    have ih := catAll_map f (b :: as)
    simp only [List.map_cons] at ih ⊢
    simp only [catAll]
    rw [ih]
    cases catAll (b :: as) with
    | error e => rfl
    | ok c =>
      simp only [onImg]
      rw [cat_map]
      show (if a.h = c.h ∧ a.w = c.w then _ else _) = _
      split <;> rfl

theorem map_map (f : V → W) {U : Type} (g : U → V) (i : Img U) : (i.map g).map f = i.map (f ∘ g) := rfl

/-- The values of masked arrays. -/
def vals (r : Py (Img (V × Bool))) : Py (Img V) := onImg Prod.fst r

theorem catMasked_vals (as : List (Img (V × Bool))) : vals (catMasked as) = catAll (as.map (Img.map Prod.fst)) := by
  match as with
  | [] => rfl
  | [a] => rfl
  | a :: b :: as =>
    show vals (catAll ((a :: b :: as).map Img.unmask)) = _
    rw [vals, ← catAll_map, List.map_map]
    rfl

/-- A leaf without data is filled with NaN. -/
def Nans (E : MEnv V) (l : Leaf) : Prop := l.nan = true → E.fill l.id = .nans

mutual
/-- C64: the values of the finalized array do not depend on the masks: masked or not, they are what C24, C28, C35
and C45 say. -/
theorem C64_values (E : MEnv V) : ∀ n : Node, Each (Nans E) n → vals (finM E n) = fin E.vals n
  | .leaf l, hl => by
    simp only [finM]
    by_cases hn : l.nan = true
    · rw [if_pos hn, fillAbsent, hl hn]
      simp only
      cases fin E.vals (.leaf l) with
      | error e => rfl
      | ok i => rfl
    · rw [if_neg hn]
      cases fin E.vals (.leaf l) with
      | error e => rfl
      | ok i => rfl
  | .concat ps d, hl => by
    have ih := finML_vals E ps hl
    simp only [finM, fin]
    rw [← ih]
    cases finML E ps with
    | error e => rfl
    | ok as => exact catMasked_vals as
  | .warp s tf d a, hl => by
    have ih := C64_values E s hl
    simp only [finM, fin]
    rw [← ih]
    cases finM E s with
    | error e => rfl
    | ok i =>
      simp only [vals, onImg]
      cases finWarp E.vals tf d a (i.map Prod.fst) with
      | error e => rfl
      | ok j => rfl
  | .crop s y0 y1 x0 x1 c, hl => by
    have ih := C64_values E s hl
    simp only [finM, fin]
    rw [← ih]
    cases finM E s with
    | error e => rfl
    | ok i =>
      simp only [vals, onImg]
      rw [slice_map, select_map]
      rfl
  | .overview s k d, hl => by
    have ih := C64_values E s hl
    simp only [finM, fin]
    rw [← ih]
    cases finM E s with
    | error e => rfl
    | ok i => rfl
  | .dequant s q d, hl => by
    have ih := C64_values E s hl
    simp only [finM, fin]
    rw [← ih]
    cases finM E s with
    | error e => rfl
    | ok i => rfl
theorem finML_vals (E : MEnv V) : ∀ ps : List Node, EachL (Nans E) ps →
    (match finML E ps with | .error e => .error e | .ok as => .ok (as.map (Img.map Prod.fst))) = finL E.vals ps
  | [], _ => rfl
  | p :: ps, hl => by
    have h1 := C64_values E p hl.1
    have h2 := finML_vals E ps hl.2
    simp only [finML, finL]
    rw [← h1, ← h2]
    cases finM E p with
    | error e => rfl
    | ok a =>
      cases finML E ps with
      | error e => rfl
      | ok as => rfl
end

/-- The masks of the files as pictures of their own, which dequantization leaves alone; nothing of a NaN image is
masked. -/
def maskEnv (E : MEnv V) : Env Bool where
  img := fun id => ⟨(E.vals.img id).h, (E.vals.img id).w, (E.vals.img id).n, E.mask id⟩
  deq := fun _ v => v
  nan := false
  border := fun _ => false
  warp := fun _ _ _ i => i
  resize := fun _ i => i
  finite := fun _ => true
  unique := fun l => l.length
  overview := fun _ _ i => i

/-- C64: the mask of an image is what its operations make of the masks of the files, for images without concats,
warps and overviews. -/
theorem C64_masks_partial (E : MEnv V) : ∀ n : Node, Flat n → Solo n → Each (Nans E) n →
    onImg Prod.snd (finM E n) = fin (maskEnv E) n
  | .leaf l, _, _, hl => by
    simp only [finM, fin]
    cases hn : l.nan with
    | true =>
      simp only [if_true]
      rw [fillAbsent, hl hn]
      simp only [fin, hn, if_true]
      by_cases h : l.dsize.1 < 0 ∨ l.dsize.2 < 0
      · rw [if_pos h, if_pos h]; rfl
      · rw [if_neg h, if_neg h]; rfl
    | false =>
      simp [onImg, Img.map, maskEnv]
  | .concat ps d, _, h, _ => h.elim
  | .warp s tf d a, h, _, _ => h.elim
  | .overview s k d, h, _, _ => h.elim
  | .crop s y0 y1 x0 x1 c, hf, hs, hl => by
    have ih := C64_masks_partial E s hf hs hl
    simp only [finM, fin]
    rw [← ih]
    cases finM E s with
    | error e => rfl
    | ok i =>
      simp only [onImg]
      rw [slice_map, select_map]
      rfl
  | .dequant s q d, hf, hs, hl => by
    have ih := C64_masks_partial E s hf hs hl
    simp only [finM, fin]
    rw [← ih]
    cases finM E s with
    | error e => rfl
    | ok i => rfl

/-- C64: the same after optimization. -/
theorem C64_masks_optimized_partial (H : Heur) (E : MEnv V) {n : Node} (hb : Built n) (hf : Flat n) (hs : Solo n)
    (hm : Each E.vals.Matches n) (hl : Each (Nans E) n) (fuel : Nat) {m : Node} (h : opt H fuel n = .ok m) :
    ∃ i j, fin (maskEnv E) n = .ok i ∧ finalizeM H E fuel n = .ok j ∧ i.Same (j.map Prod.snd) := by
  obtain ⟨i, j, h1, h2, h3⟩ := C36_arrays_flat_partial H (maskEnv E) hb hf hm (fun _ => rfl) fuel h
  obtain ⟨hw, -⟩ := hb.ok
  have g1 := (opt_good (deep := false) (keepRules H (nameRules H) stable_flat) (by simp) fuel n m ⟨hw, hf⟩ h).inv.2
  have g2 := (opt_good (deep := false) (keepRules H (nameRules H) stable_solo) (by simp) fuel n m ⟨hw, hs⟩ h).inv.2
  have g3 := (opt_good (deep := false) (keepRules H (nameRules H) (stable_each_like (Nans E) (fun _ _ _ => rfl)
    (fun _ _ h hn _ => h hn))) (by simp) fuel n m ⟨hw, hl⟩ h).inv.2
  have e : fin (maskEnv E) m = .ok j := by
    unfold finalize at h2
    rw [h] at h2
    exact h2
  rw [← C64_masks_partial E m g1 g2 g3] at e
  have e2 : finalizeM H E fuel n = finM E m := by unfold finalizeM; rw [h]
  rw [e2]
  cases hfm : finM E m with
  | error x => rw [hfm] at e; cases e
  | ok k =>
    rw [hfm] at e
    cases e
    exact ⟨i, k, h1, rfl, h3⟩

theorem catAll_unmasked : ∀ (as : List (Img (V × Bool))), (∀ a ∈ as, ∀ y x k, (a.px y x k).2 = false) →
    ∀ i, catAll as = .ok i → ∀ y x k, (i.px y x k).2 = false
  | [], _, i, h => by cases h
  | [a], ha, i, h => by
    cases h
    exact ha a (by simp)
  | a :: b :: as, ha, i, h => by
    have ih := catAll_unmasked (b :: as) (fun c hc => ha c (by simp [hc]))
    simp only [catAll] at h
    cases hc : catAll (b :: as) with
    | error e => rw [hc] at h; cases h
    | ok c =>
      rw [hc] at h
      simp only at h
      split at h
      · cases h
        intro y x k
        simp only [Img.cat]
        split
        · exact ha a (by simp) _ _ _
        · exact ih c hc _ _ _
      · cases h

/-- C64 fails for concats of several images: whatever was masked, the result has no masked pixel. -/
theorem C64_concat_violated (E : MEnv V) (p q : Node) (ps : List Node) (d : Int × Int) {i : Img (V × Bool)}
    (h : finM E (.concat (p :: q :: ps) d) = .ok i) (y x k : Nat) : (i.px y x k).2 = false := by
  simp only [finM] at h
  cases hl : finML E (p :: q :: ps) with
  | error e => rw [hl] at h; cases h
  | ok as =>
    rw [hl] at h
    simp only at h
    have two : ∃ a b bs, as = a :: b :: bs := by
      simp only [finML] at hl
      cases h1 : finM E p with
      | error e => rw [h1] at hl; cases hl
      | ok a =>
        cases h2 : finM E q with
        | error e => rw [h1, h2] at hl; cases hl
        | ok b =>
          cases h3 : finML E ps with
          | error e => rw [h1, h2, h3] at hl; cases hl
          | ok bs => rw [h1, h2, h3] at hl; cases hl; exact ⟨a, b, bs, rfl⟩
    obtain ⟨a, b, bs, rfl⟩ := two
    refine catAll_unmasked ((a :: b :: bs).map Img.unmask) ?_ i h y x k
    intro c hc
    obtain ⟨c', -, rfl⟩ := List.mem_map.1 hc
    intro _ _ _
    rfl

/-- Pixels are their own places; the second row of every file is masked. -/
def maskedEnv : MEnv (Nat × Nat × Nat) where
  vals := shapeEnv
  mask := fun _ y _ _ => decide (y = 1)
  method := fun k => if k = 1 then .masked else if k = 2 then .refused else .nans
  junk := fun _ _ _ => (0, 0, 0)
  warped := fun _ _ _ i y x k => (i.px y x k).2
  reduced := fun _ _ i y x k => (i.px (2 * y) (2 * x) k).2

/-- Rows 1 to 3 and two of the three channels of a quantized file. -/
def maskedPart : Node := .crop (mkDequant (.leaf rgbLeaf) ⟨0, 1, 0, 255, none⟩) 1 4 0 3 (some [2, 0])

theorem maskedPart_ok : Built maskedPart ∧ Flat maskedPart ∧ Solo maskedPart ∧
    Each maskedEnv.vals.Matches maskedPart := by
  refine ⟨.crop _ _ (some ((some 1, some 4), (some 0, some 3))) (some [2, 0]) (.dequant _ _ (rgb_built 1)) ?_ rfl,
    trivial, trivial, fun _ => ⟨rfl, rfl, rfl⟩⟩
  intro i hi
  simp only [List.mem_cons, List.not_mem_nil, or_false] at hi
  rcases hi with rfl | rfl <;> decide

/-- The masked row is the first one of the part. -/
example : holds (fin (maskEnv maskedEnv) maskedPart) (fun i => i.px 0 1 0 && !i.px 1 1 0) = true := by decide +kernel

example : ∃ m i j, opt Heur.code 20 maskedPart = .ok m ∧ fin (maskEnv maskedEnv) maskedPart = .ok i ∧
    finalizeM Heur.code maskedEnv 20 maskedPart = .ok j ∧ i.Same (j.map Prod.snd) := by
  have h : holds (opt Heur.code 20 maskedPart) (fun _ => true) = true := by decide +kernel
  obtain ⟨m, hm, -⟩ := holds_ok h
  obtain ⟨i, j, h1, h2, h3⟩ := C64_masks_optimized_partial Heur.code maskedEnv maskedPart_ok.1 maskedPart_ok.2.1
    maskedPart_ok.2.2.1 maskedPart_ok.2.2.2 (fun h => by cases h) 20 hm
  exact ⟨m, i, j, hm, h1, h2, h3⟩

/-- Two files next to each other. -/
def maskedPair : Node := .concat [.leaf rgbLeaf, .leaf { rgbLeaf with id := 2 }] (5, 4)

theorem maskedPair_built : Built maskedPair := by
  refine .concat [.leaf rgbLeaf, .leaf { rgbLeaf with id := 2 }] _ ?_ rfl
  intro p hp
  simp only [List.mem_cons, List.not_mem_nil, or_false] at hp
  rcases hp with rfl | rfl
  · exact rgb_built 1
  · exact rgb_built 2

/-- The first file is masked, the pair is not. -/
example : holds (finM maskedEnv (.leaf rgbLeaf)) (fun i => (i.px 1 0 0).2) = true ∧
    holds (finM maskedEnv maskedPair) (fun i => !(i.px 1 0 0).2) = true := by
  constructor <;> decide +kernel

/-- C64: whether a pixel is masked depends on optimization: choosing a channel of the pair gives an unmasked pixel
without and a masked one with optimization. -/
theorem C64_optimize_violated : ∃ n : Node, Built n ∧ Flat n ∧ Each maskedEnv.vals.Matches n ∧
    ∃ i j, finM maskedEnv n = .ok i ∧ finalizeM Heur.code maskedEnv 20 n = .ok j ∧
      (i.px 1 0 0).2 = false ∧ (j.px 1 0 0).2 = true := by
  refine ⟨.crop maskedPair 0 4 0 5 (some [0]),
    .crop _ _ none (some [0]) maskedPair_built ?_ rfl, ⟨trivial, trivial, trivial⟩,
    ⟨fun _ => ⟨rfl, rfl, rfl⟩, fun _ => ⟨rfl, rfl, rfl⟩, trivial⟩, ?_⟩
  · intro i hi
    simp only [List.mem_singleton] at hi
    subst hi
    decide
  · have h1 : holds (finM maskedEnv (.crop maskedPair 0 4 0 5 (some [0]))) (fun i => !(i.px 1 0 0).2) = true := by
      decide +kernel
    have h2 : holds (finalizeM Heur.code maskedEnv 20 (.crop maskedPair 0 4 0 5 (some [0])))
        (fun i => (i.px 1 0 0).2) = true := by decide +kernel
    obtain ⟨i, e1, e2⟩ := holds_ok h1
    obtain ⟨j, e3, e4⟩ := holds_ok h2
    exact ⟨i, j, e1, e3, by simpa using e2, e4⟩

end Verif.Props
