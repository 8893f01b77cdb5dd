/-
C36, C54, C55, C61, C62, C83, C84, C86, C87, C89 and C91 for crops, overviews and dequantizations of stacks of files, in terms of the calls: the bounds of the crops are
whole pixels of the overviews taken after them.
-/
import Verif.Props.Stepped
import Verif.Props.Lasting
import Verif.Props.Overviews

namespace Verif
namespace Props

open Tree Tree.Node Helpers

variable {V : Type} {E : Env V} {ov : Nat → Img V → Img V}

/-- By how many levels the calls go down. -/
def laterLevels : List Job → Nat
  | [] => 0
  | .overview k :: js => k.toNat + laterLevels js
  | _ :: js => laterLevels js

/-- How many of the calls dequantize. -/
def dequants : List Job → Nat
  | [] => 0
  | .dequant _ :: js => dequants js + 1
  | _ :: js => dequants js

/-- A slice of an axis of length `D` that starts and ends at multiples of `2 ** L`, or at the border. -/
def OnSteps (L : Nat) (D : Int) (s : Option Int × Option Int) : Prop :=
  (∀ i, s.1 = some i → 0 ≤ i ∧ i ≤ D ∧ 2 ^ L ∣ i) ∧ ∀ j, s.2 = some j → 0 ≤ j ∧ (2 ^ L ∣ j ∨ D ≤ j)

/-- Calls of `crop`, `get_overview` and `dequantize` one after the other, where crops start and end on pixels of the overviews
taken after them. -/
def Steady : Node → List Job → Prop
  | _, [] => True
  | n, j :: js =>
    (match j with
      | .crop sl => OnSteps (laterLevels js) n.dsize.2 sl.1 ∧ OnSteps (laterLevels js) n.dsize.1 sl.2
      | .overview k => 1 ≤ k
      | .dequant _ => True
      | _ => False) ∧
    ∀ m, j.run n = .ok m → Steady m js

mutual
/-- Files, dequantized files and stacks of them. -/
def Raw : Node → Prop
  | .leaf _ => True
  | .concat ps _ => RawL ps
  | .dequant s _ _ => Raw s
  | _ => False
def RawL : List Node → Prop
  | [] => True
  | p :: ps => Raw p ∧ RawL ps
end

mutual
theorem raw_paced (L : Nat) : ∀ n : Node, Raw n → Paced L n ∧ Snug L n ∧ Coarse n
  | .leaf _, _ => ⟨trivial, trivial, trivial⟩
  | .concat ps _, h => rawL_paced L ps h
  | .dequant s _ _, h => raw_paced L s h
  | .warp _ _ _ _, h => h.elim
  | .crop _ _ _ _ _ _, h => h.elim
  | .overview _ _ _, h => h.elim
theorem rawL_paced (L : Nat) : ∀ ps : List Node, RawL ps → PacedL L ps ∧ SnugL L ps ∧ CoarseL ps
  | [], _ => ⟨trivial, trivial, trivial⟩
  | p :: ps, h =>
    have h1 := raw_paced L p h.1
    have h2 := rawL_paced L ps h.2
    ⟨⟨h1.1, h2.1⟩, ⟨h1.2.1, h2.2.1⟩, h1.2.2, h2.2.2⟩
end

/-- Where a slice that starts and ends on steps lies. -/
theorem onSteps_bounds {L : Nat} {D : Int} (hD : 0 ≤ D) {s : Option Int × Option Int} (h : OnSteps L D s) :
    2 ^ L ∣ (normSlice D s.1 s.2).1 ∧ (2 ^ L ∣ (normSlice D s.1 s.2).2 ∨ (normSlice D s.1 s.2).2 = D) := by
  obtain ⟨a, b⟩ := s
  obtain ⟨h1, h2⟩ := h
  have key : ∀ start : Int, 2 ^ L ∣ start → start ≤ D → ∀ stop : Int, (2 ^ L ∣ stop ∨ stop = D) →
      2 ^ L ∣ max start stop ∨ max start stop = D := by
    intro start d0 le stop hs
    rcases le_total start stop with g | g
    · rwa [max_eq_right g]
    · rw [max_eq_left g]; exact .inl d0
  have stopOk : ∀ j, b = some j → 2 ^ L ∣ normBound D j ∨ normBound D j = D := by
    intro j hj
    obtain ⟨j0, hj'⟩ := h2 j hj
    have e : normBound D j = min D j := by unfold normBound; rw [if_neg (by omega)]; omega
    rw [e]
    rcases le_total D j with g | g
    · exact .inr (min_eq_left g)
    · rw [min_eq_right g]
      rcases hj' with hj' | hj'
      · exact .inl hj'
      · exact .inr (le_antisymm g hj')
  have start : 2 ^ L ∣ (normSlice D a b).1 ∧ (normSlice D a b).1 ≤ D := by
    cases a with
    | none => exact ⟨dvd_zero _, hD⟩
    | some i =>
      obtain ⟨i0, i1, i2⟩ := h1 i rfl
      have e : normBound D i = i := by unfold normBound; rw [if_neg (by omega)]; omega
      show 2 ^ L ∣ normBound D i ∧ normBound D i ≤ D
      rw [e]
      exact ⟨i2, i1⟩
  refine ⟨start.1, ?_⟩
  cases b with
  | none => exact key _ start.1 start.2 _ (.inr (max_eq_right hD))
  | some j => exact key _ start.1 start.2 _ (stopOk j rfl)

/-- What the theorems on images with overviews need. -/
structure Ready (L : Nat) (n : Node) : Prop where
  built : Built n
  paced : Paced L n
  snug : Snug L n
  coarse : Coarse n

theorem steady_run : ∀ (js : List Job) {n : Node}, Ready (laterLevels js) n → Steady n js →
    ∃ m, runAll n js = .ok m ∧ Ready 0 m ∧ deqs m = deqs n + dequants js ∧ (Fair n → Fair m)
  | [], n, h, _ => ⟨n, rfl, h, rfl, id⟩
  | .crop sl :: js, n, h, ⟨hs, ht⟩ => by
    have hd : Nonneg n.dsize := h.built.ok.2.nonneg h.built.ok.1
    obtain ⟨y1, y2⟩ := onSteps_bounds hd.2 hs.1
    obtain ⟨x1, x2⟩ := onSteps_bounds hd.1 hs.2
    have e : (Job.crop sl).run n = .ok (.crop n (normSlice n.dsize.2 sl.1.1 sl.1.2).1 (normSlice n.dsize.2 sl.1.1 sl.1.2).2
        (normSlice n.dsize.1 sl.2.1 sl.2.2).1 (normSlice n.dsize.1 sl.2.1 sl.2.2).2 none) := by
      cases hc : n.channels <;> simp [Job.run, mkCrop, chanCheck]
    obtain ⟨m, r1, r2, r3, r4⟩ := steady_run js
      (n := .crop n (normSlice n.dsize.2 sl.1.1 sl.1.2).1 (normSlice n.dsize.2 sl.1.1 sl.1.2).2
        (normSlice n.dsize.1 sl.2.1 sl.2.2).1 (normSlice n.dsize.1 sl.2.1 sl.2.2).2 none)
      ⟨.crop n _ (some sl) none h.built trivial e, ⟨⟨y1, x1⟩, h.paced⟩, ⟨⟨y2, x2⟩, h.snug⟩, h.coarse⟩
      (ht _ e)
    exact ⟨m, by rw [runAll, e]; exact r1, r2, by rw [r3]; rfl, fun hf => r4 ⟨hf, by simp⟩⟩
  | .overview k :: js, n, h, ⟨hk, ht⟩ => by
    have hk : (1 : Int) ≤ k := hk
    have hL : laterLevels (.overview k :: js) = laterLevels js + k.toNat := Nat.add_comm _ _
    obtain ⟨m, r1, r2, r3, r4⟩ := steady_run js (n := mkOverview n k)
      ⟨.overview n k h.built, ⟨by omega, by rw [← hL]; exact h.paced⟩, by
        show Snug (laterLevels js + k.toNat) n
        rw [← hL]
        exact h.snug, ⟨by omega, h.coarse⟩⟩ (ht _ rfl)
    exact ⟨m, r1, r2, by rw [r3]; rfl, r4⟩
  | .dequant q :: js, n, h, ⟨_, ht⟩ => by
    obtain ⟨m, r1, r2, r3, r4⟩ := steady_run js (n := mkDequant n q)
      ⟨.dequant n q h.built, h.paced, h.snug, h.coarse⟩ (ht _ rfl)
    exact ⟨m, r1, r2, by rw [r3, mkDequant, deqs, dequants]; omega, r4⟩
  | .warp _ _ _ :: _, _, _, h => h.1.elim
  | .padded _ _ _ _ _ :: _, _, _, h => h.1.elim

/-- C36, C37 and C55 for calls of `crop`, `get_overview` and `dequantize` on files and stacks of files with known codes, at most
one dequantization of each, and crops whose bounds are pixels of the overviews taken after them: all calls succeed, `optimize`
ends without an exception, and `finalize()` gives the array it gives without optimizing, which has the announced shape. -/
theorem C36_calls_partial (hE : Env.Blocks E ov) (hS : Env.Shaped E) {n : Node} (hb : Built n) (hr : Raw n) (hf : Fair n)
    (hm : Each E.Matches n) {js : List Job} (hs : Steady n js) (hd : deqs n + dequants js ≤ 1) :
    ∃ m i, runAll n js = .ok m ∧ fin E m = .ok i ∧ Announced m i ∧
      ∃ F, ∀ f, F ≤ f → ∃ j, finalize Heur.code E f m = .ok j ∧ i.Same j := by
  obtain ⟨r1, r2, r3⟩ := raw_paced (laterLevels js) n hr
  obtain ⟨m, h1, h2, h3, h4⟩ := steady_run js ⟨hb, r1, r2, r3⟩ hs
  have hmm : Each E.Matches m := runAll_each h1 hm
  obtain ⟨o, F, ho⟩ := C55_paced_partial h2.built h2.paced h2.coarse (h4 hf) (by omega)
  obtain ⟨i, j, e1, e2, e3⟩ := C36_arrays_snug_partial Heur.code closeOff_zero hE h2.built h2.paced h2.snug hmm F
    (ho F (le_refl _))
  exact ⟨m, i, h1, e1, C45_announced_shape hS h2.built hmm e1, F, fun f hf => ⟨j, by rw [finalize, ho f hf]; exact e2, e3⟩⟩

theorem cornerJobs_steady : Steady sideBySide cornerJobs := by
  have e4 : ovSize 1 4 = 2 := by decide +kernel
  have e6 : ovSize 1 6 = 3 := by decide +kernel
  have ed : (mkOverview (.crop sideBySide 4 8 4 10 none) 1 : Node).dsize = (3, 2) := by
    show (ovSize 1 6, ovSize 1 4) = _
    rw [e4, e6]
  refine ⟨⟨⟨?_, ?_⟩, ?_, ?_⟩, fun m h => ?_⟩
  · intro i h; cases h; decide
  · intro i h; cases h; decide
  · intro i h; cases h; decide
  · intro i h; cases h; decide
  have e1 : (Job.crop ((some 4, some 8), (some 4, some 10))).run sideBySide = .ok (.crop sideBySide 4 8 4 10 none) := rfl
  rw [e1] at h
  cases h
  refine ⟨le_refl _, fun m h => ?_⟩
  cases h
  refine ⟨⟨⟨?_, ?_⟩, ?_, ?_⟩, fun m h => ⟨le_refl _, fun _ _ => trivial⟩⟩ <;> rw [ed] <;> intro i h <;> cases h <;> decide

/-- Crops and overviews of two files with overviews side by side, one of them dequantized. -/
example : ∃ i, fin steadyEnv cornerView = .ok i ∧
    ∃ F, ∀ f, F ≤ f → ∃ j, finalize Heur.code steadyEnv f cornerView = .ok j ∧ i.Same j := by
  obtain ⟨m, i, h1, h2, -, h3⟩ := C36_calls_partial steadyEnv_blocks steadyEnv_shaped sideParts_built.2
    (show Raw sideBySide from ⟨trivial, trivial, trivial⟩) ⟨.inr rfl, .inr rfl, trivial⟩
    ⟨fun _ => ⟨rfl, rfl, rfl⟩, fun _ => ⟨rfl, rfl, rfl⟩, trivial⟩ cornerJobs_steady (by decide)
  rw [cornerJobs_run] at h1
  cases h1
  exact ⟨i, h2, h3⟩

/-! #### C91 -/

theorem steady_depths : ∀ (js : List Job) {n m : Node}, Steady n js → runAll n js = .ok m → ∀ p ∈ depths m,
    ∃ p' ∈ depths n, p'.1 = p.1 ∧ p.2 = p'.2 + laterLevels js
  | [], n, m, _, h, p, hp => by
    cases h
    exact ⟨p, hp, rfl, by simp [laterLevels]⟩
  | j :: js, n, m, ⟨hs, ht⟩, h, p, hp => by
    rw [runAll] at h
    cases e : j.run n with
    | error e' => rw [e] at h; cases h
    | ok x =>
      rw [e] at h
      obtain ⟨q, hq, q1, q2⟩ := steady_depths js (ht x e) h p hp
      cases j with
      | crop sl =>
        obtain ⟨y0, y1, x0, x1, rfl⟩ := mkCrop_form (show mkCrop n (some sl) none = .ok x from e)
        exact ⟨q, by rwa [depths] at hq, q1, q2⟩
      | overview k =>
        have hk : (1 : Int) ≤ k := hs
        cases e
        rw [mkOverview, depths, List.mem_map] at hq
        obtain ⟨r, hr, rfl⟩ := hq
        refine ⟨r, hr, q1, ?_⟩
        have : (laterLevels (.overview k :: js) : Int) = k + laterLevels js := by
          rw [laterLevels]; push_cast; rw [Int.toNat_of_nonneg (by omega)]
        rw [this, q2]
        ring
      | dequant q' =>
        cases e
        rw [mkDequant, depths] at hq
        exact ⟨q, hq, q1, q2⟩
      | warp tf d a => exact hs.elim
      | padded y0 y1 x0 x1 pad => exact hs.elim

mutual
theorem raw_depths (f : Leaf → Prop) : ∀ n : Node, Raw n → Each f n → ∀ p ∈ depths n, p.2 = 0 ∧ f p.1
  | .leaf l, _, h, p, hp => by
    rw [depths, List.mem_singleton] at hp
    subst hp
    exact ⟨rfl, h⟩
  | .concat ps _, hr, h, p, hp => rawL_depths f ps hr h p hp
  | .dequant s _ _, hr, h, p, hp => raw_depths f s hr h p hp
  | .warp _ _ _ _, hr, _, _, _ => hr.elim
  | .crop _ _ _ _ _ _, hr, _, _, _ => hr.elim
  | .overview _ _ _, hr, _, _, _ => hr.elim
theorem rawL_depths (f : Leaf → Prop) : ∀ ps : List Node, RawL ps → EachL f ps → ∀ p ∈ depthsL ps, p.2 = 0 ∧ f p.1
  | [], _, _, p, hp => by simp [depthsL] at hp
  | q :: qs, hr, h, p, hp => by
    rw [depthsL, List.mem_append] at hp
    rcases hp with hp | hp
    · exact raw_depths f q hr.1 h.1 p hp
    · exact rawL_depths f qs hr.2 h.2 p hp
end

/-- C91 for the same calls: if every file has the overviews that are taken, `finalize()` only shows stored overviews, so it does
not depend on how overviews are simulated. -/
theorem C91_calls_partial (G : Files) {n : Node} (hb : Built n) (hr : Raw n) (hc : Each (Counted G) n)
    {js : List Job} (hs : Steady n js) (ho : Each (fun l => ∃ o : Int, l.overviews = some o ∧ laterLevels js ≤ o) n) :
    ∃ m, runAll n js = .ok m ∧ ∀ fuel g,
      finalizeFiles Heur.code (Files.simulating G g) fuel m = finalizeFiles Heur.code G fuel m := by
  obtain ⟨r1, r2, r3⟩ := raw_paced (laterLevels js) n hr
  obtain ⟨m, h1, h2, -⟩ := steady_run js ⟨hb, r1, r2, r3⟩ hs
  refine ⟨m, h1, fun fuel g => C91_paced_partial Heur.code Heur.code_coded closeOff_zero G fuel h2.built h2.paced
    (runAll_each h1 hc) ?_ g⟩
  intro p hp
  obtain ⟨q, hq, q1, q2⟩ := steady_depths js hs h1 p hp
  obtain ⟨q3, o, q4, q5⟩ := raw_depths _ n hr ho q hq
  exact ⟨o, q1 ▸ q4, by omega⟩

/-- A part of the first overview of a file twice, once dequantized. -/
def bandJobs : List Job := [.crop ((some 2, none), (none, some 2)), .overview 1, .crop ((some 0, some 1), (some 0, none))]

theorem bandJobs_steady : Steady twiceBands bandJobs := by
  refine ⟨⟨⟨?_, ?_⟩, ?_, ?_⟩, fun m h => ?_⟩
  · intro i h; cases h; decide
  · intro i h; cases h
  · intro i h; cases h
  · intro i h; cases h; decide
  have e1 : (Job.crop ((some 2, none), (none, some 2))).run twiceBands = .ok (.crop twiceBands 2 4 0 2 none) := rfl
  rw [e1] at h
  cases h
  refine ⟨le_refl _, fun m h => ?_⟩
  cases h
  have ed : (mkOverview (.crop twiceBands 2 4 0 2 none) 1 : Node).dsize = (1, 1) := by
    show (ovSize 1 2, ovSize 1 2) = _
    rw [show ovSize 1 2 = 1 by decide +kernel]
  refine ⟨⟨⟨?_, ?_⟩, ?_, ?_⟩, fun m h => trivial⟩ <;> rw [ed] <;> intro i h <;> cases h <;> decide

theorem twiceBands_built : Built twiceBands := by
  refine .concat [.leaf bandPair, mkDequant (.leaf bandPair) ⟨0, 1, 0, 255, none⟩] _ (fun p hp => ?_) rfl
  simp only [List.mem_cons, List.not_mem_nil, or_false] at hp
  rcases hp with rfl | rfl
  · exact bandPair_built
  · exact .dequant _ _ bandPair_built

example : ∃ m, runAll twiceBands bandJobs = .ok m ∧ ∀ fuel g,
    finalizeFiles Heur.code (Files.simulating (someFiles false) g) fuel m = finalizeFiles Heur.code (someFiles false) fuel m :=
  C91_calls_partial (someFiles false) twiceBands_built ⟨trivial, trivial, trivial⟩
    ⟨bandPair_counted false, bandPair_counted false, trivial⟩ bandJobs_steady ⟨⟨1, rfl, by decide⟩, ⟨1, rfl, by decide⟩, trivial⟩

/-! #### C89 -/

theorem crop_run (n : Node) (sl : Space) : (Job.crop sl).run n = .ok (.crop n (normSlice n.dsize.2 sl.1.1 sl.1.2).1
    (normSlice n.dsize.2 sl.1.1 sl.1.2).2 (normSlice n.dsize.1 sl.2.1 sl.2.2).1 (normSlice n.dsize.1 sl.2.1 sl.2.2).2 none) := by
  cases hc : n.channels <;> simp [Job.run, mkCrop, chanCheck]

theorem steady_same : ∀ (js : List Job) {n p : Node}, n.dsize = p.dsize → Steady n js → Steady p js
  | [], _, _, _, _ => trivial
  | .crop sl :: js, n, p, h, ⟨hs, ht⟩ => by
    refine ⟨h ▸ hs, fun m hm => ?_⟩
    rw [crop_run] at hm
    cases hm
    refine steady_same js ?_ (ht _ (crop_run n sl))
    rw [h]
    rfl
  | .overview k :: js, n, p, h, ⟨hs, ht⟩ => by
    refine ⟨hs, fun m hm => ?_⟩
    cases hm
    exact steady_same js (mkOverview_dsize_congr h k) (ht _ rfl)
  | .dequant q :: js, n, p, h, ⟨hs, ht⟩ => by
    refine ⟨hs, fun m hm => ?_⟩
    cases hm
    exact steady_same js (n := mkDequant n q) h (ht _ rfl)
  | .warp _ _ _ :: _, _, _, _, h => h.1.elim
  | .padded _ _ _ _ _ :: _, _, _, _, h => h.1.elim

/-- C89 for the same calls: all of them succeed on a stack and on each of its parts, and `finalize()` of the result and of
the stack of the results give the same array. -/
theorem C89_calls_partial (hE : Env.Blocks E ov) (hS : Env.Shaped E) (hV : Env.Even E) (hO : Env.EvenOverviews E)
    {ps : List Node} (hb : ∀ p ∈ ps, Built p) (hr : ∀ p ∈ ps, Raw p) (hf : ∀ p ∈ ps, Fair p)
    (hm : ∀ p ∈ ps, Each E.Matches p) {n : Node} (hn : mkConcat ps = .ok n) {js : List Job} (hs : Steady n js)
    (hd : ∀ p ∈ ps, deqs p + dequants js ≤ 1) :
    ∃ m qs c, runAll n js = .ok m ∧ List.Forall₂ (fun p q => runAll p js = .ok q) ps qs ∧ mkConcat qs = .ok c ∧
      c.channels = m.channels ∧
      ∃ F, ∀ f, F ≤ f → ∃ a b, finalize Heur.code E f m = .ok a ∧ finalize Heur.code E f c = .ok b ∧ a.Same b := by
  have hbn : Built n := .concat ps n hb hn
  obtain ⟨d, rfl, hne, hdd⟩ := mkConcat_ok hn
  have hrn : ∀ p ∈ ps, Paced (laterLevels js) p ∧ Snug (laterLevels js) p ∧ Coarse p := fun p hp => raw_paced _ p (hr p hp)
  obtain ⟨m, h1, h2, h3, h4⟩ := steady_run js (n := .concat ps d) ⟨hbn, (pacedL_iff ps).2 fun p hp => (hrn p hp).1,
    (snugL_iff ps).2 fun p hp => (hrn p hp).2.1, (coarseL_iff ps).2 fun p hp => (hrn p hp).2.2⟩ hs
  rcases C89_announced hn js with ⟨e, g, -⟩ | ⟨m', qs, c, g1, g2, g3, -, g4, -⟩
  · rw [h1] at g; cases g
  rw [h1] at g1
  cases g1
  have hdq : dequants js + deqs (.concat ps d) ≤ 1 := by
    obtain ⟨p0, hp0⟩ := List.exists_mem_of_ne_nil ps hne
    have h0 := hd p0 hp0
    have : deqs (.concat ps d) ≤ 1 - dequants js := by
      rw [deqs, deqsL_le]
      intro p hp
      have := hd p hp
      omega
    omega
  have key : ∀ q ∈ qs, Ready 0 q ∧ deqs q ≤ 1 ∧ Fair q := by
    intro q hq
    obtain ⟨o, h, rfl⟩ := List.getElem_of_mem hq
    have hlen := g2.length_eq
    have hrun : runAll (ps[o]'(by omega)) js = .ok qs[o] := by
      have := g2.get (i := o) (by omega) h
      simpa only [List.get_eq_getElem] using this
    have hp : ps[o]'(by omega) ∈ ps := List.getElem_mem _
    obtain ⟨q, r1, r2, r3, r4⟩ := steady_run js ⟨hb _ hp, (hrn _ hp).1, (hrn _ hp).2.1, (hrn _ hp).2.2⟩
      (steady_same js (show (Tree.Node.concat ps d : Node).dsize = _ from (hdd _ hp).symm) hs)
    rw [hrun] at r1
    cases r1
    exact ⟨r2, by have := hd _ hp; omega, r4 (hf _ hp)⟩
  have hbc : Built c := .concat qs c (fun q h => (key q h).1.built) g3
  obtain ⟨o1, F1, ho1⟩ := C55_paced_partial h2.built h2.paced h2.coarse (h4 ((FairL_iff ps).2 hf)) (by omega)
  obtain ⟨d', rfl, -, -⟩ := mkConcat_ok g3
  obtain ⟨o2, F2, ho2⟩ := C55_paced_partial hbc ((pacedL_iff qs).2 fun q h => (key q h).1.paced)
    ((coarseL_iff qs).2 fun q h => (key q h).1.coarse) ((FairL_iff qs).2 fun q h => (key q h).2.2)
    (by rw [deqs, deqsL_le]; exact fun q h => (key q h).2.1)
  refine ⟨m, qs, _, h1, g2, g3, g4, max F1 F2, fun f hf' => ?_⟩
  exact C89_finalize_snug_partial closeOff_zero hE hS hV hO hb hm hn h1 h2.built h2.paced h2.snug g2 g3
    (ho1 f (by omega)) (ho2 f (by omega))

/-- Two pictures, one of them dequantized. -/
example : ∃ m qs c, runAll sideBySide cornerJobs = .ok m ∧ List.Forall₂ (fun p q => runAll p cornerJobs = .ok q)
      [mkDequant (.leaf pyramid) ⟨0, 1, 0, 255, none⟩, .leaf { pyramid with id := 2 }] qs ∧ mkConcat qs = .ok c ∧
    c.channels = m.channels ∧ ∃ F, ∀ f, F ≤ f → ∃ a b, finalize Heur.code steadyEnv f m = .ok a ∧
      finalize Heur.code steadyEnv f c = .ok b ∧ a.Same b := by
  refine C89_calls_partial steadyEnv_blocks steadyEnv_shaped steadyEnv_even steadyEnv_even_overviews sideParts_built.1
    ?_ ?_ ?_ rfl cornerJobs_steady ?_ <;> intro p hp <;>
    simp only [List.mem_cons, List.not_mem_nil, or_false] at hp <;> rcases hp with rfl | rfl
  · exact trivial
  · exact trivial
  · exact .inr rfl
  · exact .inr rfl
  · exact fun _ => ⟨rfl, rfl, rfl⟩
  · exact fun _ => ⟨rfl, rfl, rfl⟩
  · decide
  · decide

/-! #### C86 and C87 -/

/-- C86 for the same calls: after optimizing, exactly the files are read that the channels come from. -/
theorem C86_calls_partial {n : Node} (hb : Built n) (hr : Raw n) (hf : Fair n) (hc : Each HasChannels n) {js : List Job}
    (hs : Steady n js) (hd : deqs n + dequants js ≤ 1) :
    ∃ m o F, runAll n js = .ok m ∧ (∀ f, F ≤ f → opt Heur.code f m = .ok o) ∧ ∀ k, k ∈ files o ↔ Draws m k := by
  obtain ⟨r1, r2, r3⟩ := raw_paced (laterLevels js) n hr
  obtain ⟨m, h1, h2, h3, h4⟩ := steady_run js ⟨hb, r1, r2, r3⟩ hs
  obtain ⟨o, F, ho⟩ := C55_paced_partial h2.built h2.paced h2.coarse (h4 hf) (by omega)
  exact ⟨m, o, F, h1, ho, fun k => C86_files_paced_partial closeOff_zero h2.built h2.paced h2.coarse (h4 hf)
    (runAll_each h1 hc) F (ho F (le_refl _)) k⟩

/-- C87 for the same calls: the types of the files do not matter. -/
theorem C87_calls_partial (N : Np) {E : Bool → Env V} (hE : SameFiles E) (hv : ∀ b, (E b).overview = (E true).overview)
    (hO : Env.Blocks (E true) ov) {n : Node} (hb : Built n) (hr : Raw n) (hf : Fair n) (hm : Each (E true).Matches n)
    {js : List Job} (hs : Steady n js) (hd : deqs n + dequants js ≤ 1) :
    ∃ m i, runAll n js = .ok m ∧ finT N E m = .ok i ∧
      ∃ F, ∀ f, F ≤ f → ∃ j, finalizeT Heur.code N E f m = .ok j ∧ i.Same j := by
  obtain ⟨r1, r2, r3⟩ := raw_paced (laterLevels js) n hr
  obtain ⟨m, h1, h2, h3, h4⟩ := steady_run js ⟨hb, r1, r2, r3⟩ hs
  obtain ⟨o, F, ho⟩ := C55_paced_partial h2.built h2.paced h2.coarse (h4 hf) (by omega)
  have key := fun f (hf : F ≤ f) => C87_snug_partial N closeOff_zero hE hv hO h2.built h2.paced h2.snug (runAll_each h1 hm) f (ho f hf)
  obtain ⟨i, j, e1, -, -⟩ := key F (le_refl _)
  refine ⟨m, i, h1, e1, F, fun f hf => ?_⟩
  obtain ⟨i', j, e2, e3, e4⟩ := key f hf
  rw [e1] at e2
  cases e2
  exact ⟨j, e3, e4⟩

/-- Both, for two pictures side by side, one of bytes and one dequantized. -/
example : (∃ m o F, runAll sideBySide cornerJobs = .ok m ∧ (∀ f, F ≤ f → opt Heur.code f m = .ok o) ∧
      ∀ k, k ∈ files o ↔ Draws m k) ∧
    ∃ m i, runAll sideBySide cornerJobs = .ok m ∧
      finT ⟨fun k => if k = 2 then .u8 else .f32, fun _ => .f32, joinOf⟩ (fun _ => steadyEnv) m = .ok i ∧
      ∃ F, ∀ f, F ≤ f → ∃ j, finalizeT Heur.code ⟨fun k => if k = 2 then .u8 else .f32, fun _ => .f32, joinOf⟩
        (fun _ => steadyEnv) f m = .ok j ∧ i.Same j :=
  have hr : Raw sideBySide := ⟨trivial, trivial, trivial⟩
  have hf : Fair sideBySide := ⟨.inr rfl, .inr rfl, trivial⟩
  ⟨C86_calls_partial sideParts_built.2 hr hf ⟨fun _ => by decide, fun _ => by decide, trivial⟩ cornerJobs_steady (by decide),
   C87_calls_partial _ ⟨fun _ => rfl, fun _ => rfl, fun _ => rfl⟩ (fun _ => rfl) steadyEnv_blocks sideParts_built.2 hr hf
    ⟨fun _ => ⟨rfl, rfl, rfl⟩, fun _ => ⟨rfl, rfl, rfl⟩, trivial⟩ cornerJobs_steady (by decide)⟩

/-! #### C84 -/

/-- C84 for the same calls: channels can be selected before and after them, and `finalize()` gives the same array. -/
theorem C84_calls_partial (hE : Env.Blocks E ov) (hS : Env.Shaped E) (hV : Env.Even E) (hO : Env.EvenOverviews E) {n : Node}
    (hb : Built n) (hr : Raw n) (hf : Fair n) (hm : Each E.Matches n) {c : List Nat} (hc : ∀ i ∈ c, i < n.nchan) (h0 : c ≠ [])
    {js : List Job} (hs : Steady n js) (hd : deqs n + dequants js ≤ 1) :
    ∃ m u t m', runAll n js = .ok m ∧ takeIdx m c = .ok u ∧ takeIdx n c = .ok t ∧ runAll t js = .ok m' ∧
      u.channels = m'.channels ∧
      ∃ F, ∀ f, F ≤ f → ∃ a b, finalize Heur.code E f u = .ok a ∧ finalize Heur.code E f m' = .ok b ∧ a.Same b := by
  obtain ⟨r1, r2, r3⟩ := raw_paced (laterLevels js) n hr
  obtain ⟨m, h1, h2, h3, h4⟩ := steady_run js ⟨hb, r1, r2, r3⟩ hs
  have hcm : ∀ i ∈ c, i < m.nchan := fun i hi => by rw [(runAll_nchan h1).1]; exact hc i hi
  obtain ⟨t, ht⟩ := takeIdx_total n hb.ok.1 (fair_named n hb.ok.1 hf) c h0 hc
  obtain ⟨u, hu⟩ := takeIdx_total m h2.built.ok.1 (fair_named m h2.built.ok.1 (h4 hf)) c h0 hcm
  have kt := kept_take hb hc ht
  have ku := kept_take h2.built hcm hu
  have ft := takeIdx_fair (k := deqs n) n ⟨hf, le_refl _⟩ c t h0 ht
  have fu := takeIdx_fair (k := deqs m) m ⟨h4 hf, le_refl _⟩ c u h0 hu
  obtain ⟨m', g1, g2, g3, g4⟩ := steady_run js (n := t) ⟨kt.built hb, takeIdx_stable (paced_take _) n hb.ok.1 r1 c t hc ht,
    takeIdx_stable (snug_take _) n hb.ok.1 r2 c t hc ht, takeIdx_stable coarse_take n hb.ok.1 r3 c t hc ht⟩
    (steady_same js kt.dsize.symm hs)
  obtain ⟨o1, F1, ho1⟩ := C55_paced_partial (ku.built h2.built) (takeIdx_stable (paced_take _) m h2.built.ok.1 h2.paced c u hcm hu)
    (takeIdx_stable coarse_take m h2.built.ok.1 h2.coarse c u hcm hu) fu.1 (by have := fu.2; omega)
  obtain ⟨o2, F2, ho2⟩ := C55_paced_partial g2.built g2.paced g2.coarse (g4 ft.1) (by have := ft.2; omega)
  have hch : u.channels = m'.channels := by
    rcases C84_announced hb hc ht js with ⟨e, g, -⟩ | ⟨w, w', k1, k2, k3⟩
    · rw [h1] at g; cases g
    · rw [h1] at k1
      rw [g1] at k2
      cases k1
      cases k2
      exact (k3 u h2.built hu).2.1.symm
  exact ⟨m, u, t, m', h1, hu, ht, g1, hch, max F1 F2, fun f hf' => C84_finalize_snug_partial closeOff_zero hE hS hV hO hb hc h1 hu ht
    g1 h2.built h2.paced h2.snug hm (ho1 f (by omega)) (ho2 f (by omega))⟩

/-- One channel of each picture. -/
example : ∃ m u t m', runAll sideBySide cornerJobs = .ok m ∧ takeIdx m [4, 1] = .ok u ∧ takeIdx sideBySide [4, 1] = .ok t ∧
    runAll t cornerJobs = .ok m' ∧ u.channels = m'.channels ∧ ∃ F, ∀ f, F ≤ f → ∃ a b,
      finalize Heur.code steadyEnv f u = .ok a ∧ finalize Heur.code steadyEnv f m' = .ok b ∧ a.Same b :=
  C84_calls_partial steadyEnv_blocks steadyEnv_shaped steadyEnv_even steadyEnv_even_overviews sideParts_built.2
    (show Raw sideBySide from ⟨trivial, trivial, trivial⟩) ⟨.inr rfl, .inr rfl, trivial⟩
    ⟨fun _ => ⟨rfl, rfl, rfl⟩, fun _ => ⟨rfl, rfl, rfl⟩, trivial⟩ (by decide) (by simp) cornerJobs_steady (by decide)

/-! #### C83 -/

theorem steady_step {j : Job} {js : List Job} {n : Node} (h : Ready (laterLevels (j :: js)) n) (hs : Steady n (j :: js)) :
    ∃ x, j.run n = .ok x ∧ Ready (laterLevels js) x ∧ Steady x js := by
  obtain ⟨hs, ht⟩ := hs
  cases j with
  | crop sl =>
    have hd : Nonneg n.dsize := h.built.ok.2.nonneg h.built.ok.1
    obtain ⟨y1, y2⟩ := onSteps_bounds hd.2 hs.1
    obtain ⟨x1, x2⟩ := onSteps_bounds hd.1 hs.2
    have e := crop_run n sl
    exact ⟨_, e, ⟨.crop n _ (some sl) none h.built trivial e, ⟨⟨y1, x1⟩, h.paced⟩, ⟨⟨y2, x2⟩, h.snug⟩, h.coarse⟩, ht _ e⟩
  | overview k =>
    have hk : (1 : Int) ≤ k := hs
    have hL : laterLevels (.overview k :: js) = laterLevels js + k.toNat := Nat.add_comm _ _
    exact ⟨_, rfl, ⟨.overview n k h.built, ⟨by omega, by rw [← hL]; exact h.paced⟩, by
        show Snug (laterLevels js + k.toNat) n
        rw [← hL]
        exact h.snug, ⟨by omega, h.coarse⟩⟩, ht _ rfl⟩
  | dequant q => exact ⟨_, rfl, ⟨.dequant n q h.built, h.paced, h.snug, h.coarse⟩, ht _ rfl⟩
  | warp tf d a => exact hs.elim
  | padded y0 y1 x0 x1 pad => exact hs.elim

/-- Calls one after the other, with calls of `optimize` before, between and after them. -/
inductive Between : Node → List Job → Node → Prop
  | done (n : Node) : Between n [] n
  | call {n x m : Node} {j : Job} {js : List Job} (h : j.run n = .ok x) (t : Between x js m) : Between n (j :: js) m
  | optimize {n x m : Node} {js : List Job} (fuel : Nat) (h : opt Heur.code fuel n = .ok x) (t : Between x js m) : Between n js m

theorem between_early {x m' : Node} {js : List Job} (h : Between x js m') : ∀ {n : Node}, Early Heur.code n x →
    x.dsize = n.dsize → Ready (laterLevels js) n → Steady n js → ∃ m, runAll n js = .ok m ∧ Early Heur.code m m' := by
  induction h with
  | done x => exact fun {n} h _ _ _ => ⟨n, rfl, h⟩
  | @call x y m' j js hj t ih =>
    intro n h hd hr hs
    obtain ⟨z, e, hz, hs'⟩ := steady_step hr hs
    have key : Early Heur.code z y ∧ y.dsize = z.dsize := by
      cases j with
      | crop sl =>
        rw [crop_run] at hj e
        cases hj
        cases e
        rw [hd]
        exact ⟨.crop _ _ _ _ _ h (.refl _), rfl⟩
      | overview k =>
        cases hj
        cases e
        have hv := mkOverview_dsize_congr hd k
        refine ⟨?_, hv⟩
        have : mkOverview x k = .overview x k (mkOverview n k).dsize := by rw [← hv]; rfl
        rw [this]
        exact .overview _ _ h (.refl _)
      | dequant q =>
        cases hj
        cases e
        refine ⟨?_, hd⟩
        have : mkDequant x q = .dequant x q n.dsize := by rw [← hd]; rfl
        rw [this]
        exact .dequant _ _ h (.refl _)
      | warp tf d a => exact hs.1.elim
      | padded y0 y1 x0 x1 pad => exact hs.1.elim
    obtain ⟨m, g1, g2⟩ := ih key.1 key.2 hz hs'
    exact ⟨m, by rw [runAll, e]; exact g1, g2⟩
  | @optimize x y m' js fuel ho t ih =>
    intro n h hd hr hs
    have h' := h.trans (.opt fuel ho (.refl y))
    exact ih h' (C83_paced_partial closeOff_zero h' hr.built (hr.paced.mono (Nat.zero_le _))).2.2.1 hr hs

/-- C83 for the same calls: wherever `optimize` is called between them, `finalize()` gives the array that is computed without
any optimizing. -/
theorem C83_calls_partial (hE : Env.Blocks E ov) (hS : Env.Shaped E) {n : Node} (hb : Built n) (hr : Raw n) (hf : Fair n)
    (hm : Each E.Matches n) {js : List Job} (hs : Steady n js) (hd : deqs n + dequants js ≤ 1) :
    ∃ m i, runAll n js = .ok m ∧ fin E m = .ok i ∧ ∀ m', Between n js m' → m'.dsize = m.dsize ∧ m'.channels = m.channels ∧
      ∃ j F, (∀ f, F ≤ f → finalize Heur.code E f m' = .ok j) ∧ i.Same j := by
  obtain ⟨r1, r2, r3⟩ := raw_paced (laterLevels js) n hr
  obtain ⟨m, h1, h2, h3, h4⟩ := steady_run js ⟨hb, r1, r2, r3⟩ hs
  have hmm := runAll_each h1 hm
  obtain ⟨i, -, -, e1, -⟩ := C83_results_snug_partial hE hS (.refl m) h2.built h2.paced h2.snug h2.coarse (h4 hf) (by omega) hmm
  refine ⟨m, i, h1, e1, fun m' hb' => ?_⟩
  obtain ⟨w, g1, g2⟩ := between_early hb' (.refl n) rfl ⟨hb, r1, r2, r3⟩ hs
  rw [h1] at g1
  cases g1
  obtain ⟨-, -, k1, k2, -⟩ := C83_paced_partial closeOff_zero g2 h2.built h2.paced
  obtain ⟨i', j, F, e2, e3, e4⟩ := C83_results_snug_partial hE hS g2 h2.built h2.paced h2.snug h2.coarse (h4 hf) (by omega) hmm
  rw [e1] at e2
  cases e2
  exact ⟨k1, k2, j, F, e3, e4⟩

/-- Optimizing at the start of `cornerJobs` and after the first overview. -/
example : ∃ m', Between sideBySide cornerJobs m' ∧ ∃ i j F, fin steadyEnv cornerView = .ok i ∧
    (∀ f, F ≤ f → finalize Heur.code steadyEnv f m' = .ok j) ∧ i.Same j := by
  obtain ⟨a, h1, h2⟩ := holds_ok (x := opt Heur.code 60 sideBySide) (f := fun a =>
    holds (runAll a (cornerJobs.take 2)) fun b => holds (opt Heur.code 60 b) fun c => holds (runAll c (cornerJobs.drop 2)) fun _ => true)
    (by decide +kernel)
  obtain ⟨b, h3, h4⟩ := holds_ok h2
  obtain ⟨c, h5, h6⟩ := holds_ok h4
  obtain ⟨m', h7, -⟩ := holds_ok h6
  have calls : ∀ (js ks : List Job) (x y z : Node), runAll x js = .ok y → Between y ks z → Between x (js ++ ks) z := by
    intro js
    induction js with
    | nil => intro ks x y z h t; cases h; exact t
    | cons j js ih =>
      intro ks x y z h t
      rw [runAll] at h
      cases e : j.run x with
      | error e' => rw [e] at h; cases h
      | ok w => rw [e] at h; exact .call e (ih ks w y z h t)
  have hB : Between sideBySide cornerJobs m' := by
    refine .optimize 60 h1 ?_
    have := calls (cornerJobs.take 2) (cornerJobs.drop 2) a b m' h3
      (.optimize 60 h5 (by simpa using calls (cornerJobs.drop 2) [] c m' m' h7 (.done m')))
    exact this
  obtain ⟨m, i, g1, g2, g3⟩ := C83_calls_partial steadyEnv_blocks steadyEnv_shaped sideParts_built.2
    (show Raw sideBySide from ⟨trivial, trivial, trivial⟩) ⟨.inr rfl, .inr rfl, trivial⟩
    ⟨fun _ => ⟨rfl, rfl, rfl⟩, fun _ => ⟨rfl, rfl, rfl⟩, trivial⟩ cornerJobs_steady (by decide)
  rw [cornerJobs_run] at g1
  cases g1
  obtain ⟨-, -, j, F, g4, g5⟩ := g3 m' hB
  exact ⟨m', hB, i, j, F, g2, g4, g5⟩

/-! #### C54, C61 and C62 -/

/-- C54, C61 and C62 for the same calls: the result of `optimize` is not optimized further, the self-check passes, and
indexing the image gives the part of the array that NumPy gives, all with the default `finalize()`. -/
theorem C61_calls_partial (hE : Env.Blocks E ov) (hS : Env.Shaped E) {n : Node} (hb : Built n) (hr : Raw n) (hf : Fair n)
    (hm : Each E.Matches n) {js : List Job} (hs : Steady n js) (hd : deqs n + dequants js ≤ 1) :
    ∃ m o F, runAll n js = .ok m ∧ (∀ f, F ≤ f → opt Heur.code f m = .ok o ∧ opt Heur.code f o = .ok o ∧
        validate Heur.code E f m = .ok ()) ∧
      ∀ k, Index.Ok m k → ∃ t i F, getitem m k = .ok t ∧ ∀ f, F ≤ f → finalize Heur.code E f m = .ok i ∧
        Agree (finalize Heur.code E f t) (npItem i k) := by
  obtain ⟨r1, r2, r3⟩ := raw_paced (laterLevels js) n hr
  obtain ⟨m, h1, h2, h3, h4⟩ := steady_run js ⟨hb, r1, r2, r3⟩ hs
  have hmm := runAll_each h1 hm
  obtain ⟨o, F, ho⟩ := C55_paced_partial h2.built h2.paced h2.coarse (h4 hf) (by omega)
  obtain ⟨F', ho'⟩ := C54_paced_partial Heur.code closeOff_zero h2.built h2.paced F (ho F (le_refl _))
  obtain ⟨F'', hv⟩ := C62_passes_paced_partial hS h2.built h2.paced h2.coarse (h4 hf) (by omega) hmm
  exact ⟨m, o, max F (max F' F''), h1, fun f hf => ⟨ho f (by omega), ho' f (by omega), hv f (by omega)⟩,
    fun k hk => C61_finalize_snug_partial hE hS h2.built h2.paced h2.snug h2.coarse (h4 hf) (by omega) hmm hk⟩

example : ∃ o F, (∀ f, F ≤ f → opt Heur.code f cornerView = .ok o ∧ opt Heur.code f o = .ok o ∧
      validate Heur.code steadyEnv f cornerView = .ok ()) ∧
    ∃ t i F, getitem cornerView (.three ((some 0, none), (none, some 1)) [4, 1]) = .ok t ∧ ∀ f, F ≤ f →
      finalize Heur.code steadyEnv f cornerView = .ok i ∧
      Agree (finalize Heur.code steadyEnv f t) (npItem i (.three ((some 0, none), (none, some 1)) [4, 1])) := by
  obtain ⟨m, o, F, g1, g2, g3⟩ := C61_calls_partial steadyEnv_blocks steadyEnv_shaped sideParts_built.2
    (show Raw sideBySide from ⟨trivial, trivial, trivial⟩) ⟨.inr rfl, .inr rfl, trivial⟩
    ⟨fun _ => ⟨rfl, rfl, rfl⟩, fun _ => ⟨rfl, rfl, rfl⟩, trivial⟩ cornerJobs_steady (by decide)
  rw [cornerJobs_run] at g1
  cases g1
  exact ⟨o, F, g2, g3 _ ⟨by simp, show ∀ i ∈ [4, 1], i < 6 by decide⟩⟩

end Props
end Verif
