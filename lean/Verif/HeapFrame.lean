/-
Which metadata dictionaries `optimize` assigns to.
-/
import Verif.HeapLemmas

namespace Verif
namespace Tree

open Helpers Node

/-- Where a tree is: not below a protected dequantization, or below one without (`some false`) or with
(`some true`) a warp in between. -/
abbrev Place := Option Bool

/-- The place below a warp. -/
def Place.warp (m : Place) : Place := m.map fun _ => true

/-- The place below a protected dequantization. -/
def Place.deq (m : Place) : Place := some (m.getD false)

mutual
/-- No protected dequantization is above an overview or above a warp above a leaf with overviews. -/
def Still (prot : Cell → Bool) : Place → Obj → Prop
  | m, .leaf l => m = some true → l.overviews = none ∨ l.overviews = some 0
  | m, .concat ps _ => StillL prot m ps
  | m, .warp s _ _ _ => Still prot m.warp s
  | m, .crop s _ _ _ _ _ => Still prot m s
  | m, .overview s _ _ => m = none ∧ Still prot m s
  | m, .dequant s q _ => Still prot (if prot q.2 then m.deq else m) s
def StillL (prot : Cell → Bool) : Place → List Obj → Prop
  | _, [] => True
  | m, p :: ps => Still prot m p ∧ StillL prot m ps
end

variable {prot : Cell → Bool} {m m' : Place}

theorem StillL_iff : ∀ ps : List Obj, StillL prot m ps ↔ ∀ p ∈ ps, Still prot m p
  | [] => by simp [StillL]
  | p :: ps => by simp [StillL, StillL_iff ps]

/-- The first place asks for more than the second. -/
def Place.Le (m m' : Place) : Prop := m = m' ∨ m = some true ∨ m' = none

theorem Place.Le.warp (h : Place.Le m m') : m.warp.Le m'.warp := by
  rcases h with rfl | rfl | rfl
  · exact .inl rfl
  · exact .inr (.inl rfl)
  · exact .inr (.inr rfl)

theorem Place.Le.deq (h : Place.Le m m') : m.deq.Le m'.deq := by
  rcases h with rfl | rfl | rfl
  · exact .inl rfl
  · exact .inr (.inl rfl)
  · rcases m with _ | b | b
    · exact .inl rfl
    · exact .inl rfl
    · exact .inr (.inl rfl)

theorem Place.deq_le (m : Place) : m.deq.Le m := by
  rcases m with _ | b | b
  · exact .inr (.inr rfl)
  · exact .inl rfl
  · exact .inl rfl

theorem Place.warp_le (m : Place) : m.warp.Le m := by
  rcases m with _ | b | b
  · exact .inl rfl
  · exact .inr (.inl rfl)
  · exact .inl rfl

theorem Place.warp_warp (m : Place) : m.warp.warp = m.warp := by cases m <;> rfl

mutual
theorem Still.le : ∀ {m m' : Place} (n : Obj), m.Le m' → Still prot m n → Still prot m' n
  | m, m', .leaf _, h, hn => fun e => by
    subst e
    rcases h with h | h | h
    · exact hn h
    · exact hn h
    · cases h
  | _, _, .concat ps _, h, hn => StillL.le ps h hn
  | _, _, .warp s _ _ _, h, hn => Still.le s h.warp hn
  | _, _, .crop s _ _ _ _ _, h, hn => Still.le s h hn
  | m, m', .overview s _ _, h, hn => by
    obtain ⟨rfl, hn⟩ := hn
    rcases h with h | h | h
    · subst h; exact ⟨rfl, hn⟩
    · cases h
    · subst h; exact ⟨rfl, hn⟩
  | m, m', .dequant s q _, h, hn => by
    rw [Still] at hn ⊢
    cases hp : prot q.2 with
    | false =>
      rw [hp] at hn
      exact Still.le s h hn
    | true =>
      rw [hp] at hn
      exact Still.le s h.deq hn
theorem StillL.le : ∀ {m m' : Place} (ps : List Obj), m.Le m' → StillL prot m ps → StillL prot m' ps
  | _, _, [], _, _ => trivial
  | _, _, p :: ps, h, hn => ⟨Still.le p h hn.1, StillL.le ps h hn.2⟩
end

mutual
theorem Still.bare_iff : ∀ {m : Place} (n : Obj), Still prot m (bare n) ↔ Still prot m n
  | _, .leaf _ => Iff.rfl
  | _, .concat ps _ => StillL.bare_iff ps
  | _, .warp s _ _ _ => Still.bare_iff s
  | _, .crop s _ _ _ _ _ => Still.bare_iff s
  | _, .overview s _ _ => and_congr Iff.rfl (Still.bare_iff s)
  | _, .dequant s _ _ => Still.bare_iff s
theorem StillL.bare_iff : ∀ {m : Place} (ps : List Obj), StillL prot m (bareL ps) ↔ StillL prot m ps
  | _, [] => Iff.rfl
  | _, p :: ps => and_congr (Still.bare_iff p) (StillL.bare_iff ps)
end

mutual
theorem Still.refresh_iff {σ : List (Int × Int)} : ∀ {m : Place} (n : Obj),
    Still prot m (refresh σ n) ↔ Still prot m n
  | _, .leaf _ => Iff.rfl
  | _, .concat ps _ => StillL.refresh_iff ps
  | _, .warp s _ _ _ => Still.refresh_iff s
  | _, .crop s _ _ _ _ _ => Still.refresh_iff s
  | _, .overview s _ _ => and_congr Iff.rfl (Still.refresh_iff s)
  | _, .dequant s _ _ => Still.refresh_iff s
theorem StillL.refresh_iff {σ : List (Int × Int)} : ∀ {m : Place} (ps : List Obj),
    StillL prot m (refreshL σ ps) ↔ StillL prot m ps
  | _, [] => Iff.rfl
  | _, p :: ps => and_congr (Still.refresh_iff p) (StillL.refresh_iff ps)
end

mutual
/-- Below a warp below a protected dequantization no overviews are offered. -/
theorem Still.overviews : ∀ (n : Obj), Still prot (some true) n → ∀ k, n.numOverviews = .ok (some k) → k = 0
  | .leaf l, hn, k, h => by
    simp only [numOverviews, Except.ok.injEq] at h
    rcases hn rfl with e | e
    · rw [e] at h; cases h
    · rw [e] at h; cases h; rfl
  | .concat ps d, hn, k, h => by
    simp only [numOverviews] at h
    split at h
    · cases h
    · cases h
    · rename_i c cs hcs
      simp only [Except.ok.injEq] at h
      split at h
      · subst h
        exact StillL.overviews ps hn _ hcs k (by simp)
      · cases h
  | .warp s _ _ _, hn, k, h => Still.overviews s hn k h
  | .crop s _ _ _ _ _, hn, k, h => Still.overviews s hn k h
  | .overview s _ _, hn, _, _ => by cases hn.1
  | .dequant s q _, hn, k, h => by
    rw [Still] at hn
    refine Still.overviews s ?_ k h
    split at hn <;> exact hn
theorem StillL.overviews : ∀ (ps : List Obj), StillL prot (some true) ps → ∀ cs, numOverviewsL ps = .ok cs →
    ∀ k, some k ∈ cs → k = 0
  | [], _, cs, h, k, hk => by
    simp only [numOverviewsL, Except.ok.injEq] at h
    subst h
    simp at hk
  | p :: ps, hn, cs, h, k, hk => by
    simp only [numOverviewsL] at h
    split at h
    · cases h
    · rename_i c hc
      split at h
      · cases h
      · rename_i cs' hcs
        cases h
        rcases List.mem_cons.1 hk with e | e
        · subst e; exact Still.overviews p hn.1 k hc
        · exact StillL.overviews ps hn.2 cs' hcs k e
end

/-! #### the constructors -/

theorem Still.mkCrop {s r : Obj} {sl : Option Space} {c : Option (List Nat)} (hs : Still prot m s)
    (h : mkCrop s sl c = .ok r) : Still prot m r := by
  obtain ⟨_, _, _, _, rfl⟩ := mkCrop_shape h
  exact hs

theorem Still.mkConcat {ps : List Obj} {r : Obj} (hs : StillL prot m ps) (h : mkConcat ps = .ok r) :
    Still prot m r := by
  unfold Tree.mkConcat at h
  split at h
  · cases h
  · split at h
    · cases h; exact hs
    · cases h

theorem Still.nanLeaf (kind : Nat) (d : Int × Int) (names : Option (List Str)) : Still prot m (nanLeaf kind d names) :=
  fun _ => .inl rfl

theorem Still.paddedCrop {s r : Obj} {y0 y1 x0 x1 : Int} {pad : (Int × Int) × (Int × Int)}
    (hs : Still prot none s) (h : paddedCrop s y0 y1 x0 x1 pad = .ok r) : Still prot none r := by
  unfold Tree.paddedCrop at h
  split at h
  · cases h
  · split at h
    · cases h
    · split at h
      · cases h
      · rename_i new hnew
        have hn := hs.mkCrop hnew
        simp only at h
        split at h
        · cases h; exact hn
        · cases h; exact hn

mutual
theorem Still.take : ∀ {m : Place} (n : Obj), Still prot m n → ∀ {idxs r}, takeIdx n idxs = .ok r → Still prot m r
  | _, .leaf l, hn, _, _, h => by rw [takeIdx] at h; exact hn.mkCrop h
  | _, .warp s tf d a, hn, _, _, h => by rw [takeIdx] at h; exact hn.mkCrop h
  | _, .crop s y0 y1 x0 x1 c, hn, _, _, h => by rw [takeIdx] at h; exact hn.mkCrop h
  | _, .overview s k d, hn, _, _, h => by rw [takeIdx] at h; exact hn.mkCrop h
  | _, .dequant s q d, hn, _, _, h => by rw [takeIdx] at h; exact hn.mkCrop h
  | m, .concat ps d, hn, idxs, r, h => by
    rw [takeIdx] at h
    split at h
    · cases h
    · unfold concatTake at h
      split at h
      · cases h
      · split at h
        · cases h
        · rename_i segs _ comps hcomps
          refine Still.mkConcat ((StillL_iff _).2 fun q hq => ?_) h
          obtain ⟨sg, _, hsub⟩ := mapAll_mem hcomps q hq
          unfold Seg.sub at hsub
          split at hsub
          · cases hsub; exact Still.nanLeaf _ _ _
          · rename_i o _
            rw [takersQ_eq, List.getElem?_map] at hsub
            cases hp : ps[o]? with
            | none => rw [hp] at hsub; simp at hsub
            | some p =>
              have hmem : p ∈ ps := List.mem_of_getElem? hp
              rw [hp] at hsub
              simp only [Option.map_some] at hsub
              split at hsub
              · cases hsub
              · cases hsub; exact (StillL_iff _).1 hn _ hmem
              · exact StillL.take ps hn p hmem hsub
theorem StillL.take : ∀ {m : Place} (ps : List Obj), StillL prot m ps → ∀ p ∈ ps, ∀ {idxs r},
    takeIdx p idxs = .ok r → Still prot m r
  | _, [], _, p, hp, _, _, _ => by simp at hp
  | _, q :: qs, hn, p, hp, _, _, h => by
    rcases List.mem_cons.1 hp with e | hp
    · rw [e] at h; exact Still.take q hn.1 h
    · exact StillL.take qs hn.2 p hp h
end

theorem Still.warpAfterCrop {s : Obj} {tf tf' : Affine} {y0 y1 x0 x1 : Int} {c : Option (List Nat)} {r : Obj}
    (hs : Still prot m s) (h : warpAfterCrop s tf y0 y1 x0 x1 c = .ok (some (r, tf'))) : Still prot m r := by
  unfold Tree.warpAfterCrop at h
  split at h
  · cases h
  · dsimp only at h
    split at h
    · cases h
    · rename_i inner hi
      cases h
      exact hs.mkCrop hi

/-- The dequantizations above an overview are not protected. -/
theorem Still.look : ∀ (k : Nat) {m : Place} {n : Obj} {chain : List (Link (Quantization × Cell))} {s : Obj}
    {j : Int} {d : Int × Int}, Still prot m n → look k n = some (chain, s, j, d) →
    (∀ c ∈ chainCells chain, prot c = false) ∧ m = none ∧ Still prot none s
  | 0, _, n, _, _, _, _, _, h => by simp [Tree.look] at h
  | k + 1, _, .leaf _, _, _, _, _, _, h => by simp [Tree.look] at h
  | k + 1, _, .concat _ _, _, _, _, _, _, h => by simp [Tree.look] at h
  | k + 1, _, .warp _ _ _ _, _, _, _, _, _, h => by simp [Tree.look] at h
  | k + 1, _, .overview s _ _, _, _, _, _, hn, h => by
    simp only [Tree.look, Option.some.injEq, Prod.mk.injEq] at h
    obtain ⟨rfl, rfl, _, _⟩ := h
    obtain ⟨rfl, hn⟩ := hn
    exact ⟨by simp [chainCells], rfl, hn⟩
  | k + 1, _, .crop s y0 y1 x0 x1 c, _, _, _, _, hn, h => by
    simp only [Tree.look, Option.map_eq_some_iff] at h
    obtain ⟨⟨ch, s', j', d'⟩, h1, h2⟩ := h
    simp only [Prod.mk.injEq] at h2
    obtain ⟨rfl, rfl, rfl, rfl⟩ := h2
    have := Still.look k (n := s) hn h1
    exact ⟨by simpa [chainCells] using this.1, this.2⟩
  | k + 1, m, .dequant s q dq, _, _, _, _, hn, h => by
    simp only [Tree.look, Option.map_eq_some_iff] at h
    obtain ⟨⟨ch, s', j', d'⟩, h1, h2⟩ := h
    simp only [Prod.mk.injEq] at h2
    obtain ⟨rfl, rfl, rfl, rfl⟩ := h2
    rw [Still] at hn
    have := Still.look k (n := s) hn h1
    cases hp : prot q.2 with
    | true => rw [hp] at this; cases this.2.1
    | false =>
      rw [hp] at this
      refine ⟨?_, this.2⟩
      simp only [chainCells, List.mem_cons, forall_eq_or_imp]
      exact ⟨hp, this.1⟩

theorem Still.relink : ∀ {ls : List (Link (Quantization × Cell))} {n r : Obj},
    (∀ c ∈ chainCells ls, prot c = false) → Still prot none n → relink ls n = .ok r → Still prot none r
  | [], n, r, _, hn, h => by cases h; exact hn
  | .deq q d :: ls, n, r, hl, hn, h => by
    simp only [Tree.relink] at h
    simp only [chainCells, List.mem_cons, forall_eq_or_imp] at hl
    split at h
    · cases h
    · rename_i m hm
      cases h
      rw [Still, hl.1]
      exact Still.relink hl.2 hn hm
  | .crop _ _ _ _ _ :: _, n, r, _, _, h => by simp [Tree.relink] at h

theorem chainCells_dropLast : ∀ {ls : List (Link (Quantization × Cell))} {c : Cell},
    c ∈ chainCells ls.dropLast → c ∈ chainCells ls
  | [], _, h => h
  | [l], _, h => by simp [chainCells] at h
  | .deq q d :: l :: ls, c, h => by
    simp only [List.dropLast_cons_cons, chainCells, List.mem_cons] at h
    simp only [chainCells, List.mem_cons]
    rcases h with h | h
    · exact .inl h
    · right
      have := chainCells_dropLast (ls := l :: ls) h
      cases l <;> simpa [chainCells] using this
  | .crop _ _ _ _ _ :: l :: ls, c, h => by
    simp only [List.dropLast_cons_cons, chainCells] at h
    simp only [chainCells]
    have := chainCells_dropLast (ls := l :: ls) h
    cases l <;> simpa [chainCells] using this

/-- Only unprotected dictionaries are assigned to. -/
theorem Still.writes {H : Heur} {s : Obj} {tf : Affine} (hs : Still prot m s) :
    ∀ w ∈ absorbWrites H s tf, prot w.1 = false := by
  unfold absorbWrites
  split
  · simp
  · split
    · simp
    · rename_i chain osub k d hl
      have hc := (hs.look 4 hl).1
      split
      · simp
      · split
        · split
          · intro w hw
            obtain ⟨c, h1, rfl⟩ := List.mem_map.1 hw
            exact hc c (chainCells_dropLast h1)
          · simp
        · intro w hw
          obtain ⟨c, h1, rfl⟩ := List.mem_map.1 hw
          exact hc c h1

theorem assign_length : ∀ (ws : List (Cell × (Int × Int))) (σ : List (Int × Int)),
    (assign σ ws).length = σ.length
  | [], _ => rfl
  | w :: ws, σ => by rw [assign, assign_length ws]; simp

theorem assign_get {c : Cell} : ∀ (ws : List (Cell × (Int × Int))) (σ : List (Int × Int)),
    (∀ w ∈ ws, w.1 ≠ c) → (assign σ ws)[c]? = σ[c]?
  | [], _, _ => rfl
  | w :: ws, σ, h => by
    rw [assign, assign_get ws _ fun w' hw' => h w' (by simp [hw'])]
    exact List.getElem?_set_ne (h w (by simp))

theorem Still.absorb {H : Heur} {s : Obj} {tf : Affine} {d : Int × Int} {a : Algo} {r : Obj}
    (hs : Still prot m.warp s) (h : absorb H s tf d a = .ok r) : Still prot m r := by
  unfold Tree.absorb at h
  split at h
  · cases h; exact hs
  · split at h
    · cases h; exact hs
    · rename_i chain osub k dk hl
      obtain ⟨hc, hm, ho⟩ := hs.look 4 hl
      have hm' : m = none := by cases m <;> simp_all [Place.warp]
      subst hm'
      split at h
      · cases h; exact hs
      · split at h
        · split at h
          · cases h
          · cases h
          · rename_i inner tf1 hw
            split at h
            · cases h
            · rename_i head hh
              have hr := Still.relink (fun c h => hc c (chainCells_dropLast h)) (Still.warpAfterCrop ho hw) hh
              cases h
              exact hr
        · split at h
          · cases h
          · rename_i head hh
            have hr := Still.relink hc ho hh
            cases h
            exact hr

theorem Still.fuseCrops {s r : Obj} {iy0 iy1 ix0 ix1 : Int} {ic : Option (List Nat)} {y0 y1 x0 x1 : Int}
    {c : Option (List Nat)} (hs : Still prot m s)
    (h : fuseCrops s iy0 iy1 ix0 ix1 ic y0 y1 x0 x1 c = .ok r) : Still prot m r := by
  unfold Tree.fuseCrops at h
  split at h
  · cases h
  · exact hs.mkCrop h

theorem Still.nanCrop {l : Leaf} {y0 y1 x0 x1 : Int} {c : Option (List Nat)} {r : Obj}
    (h : nanCrop l y0 y1 x0 x1 c = .ok r) : Still prot m r := by
  unfold Tree.nanCrop at h
  split at h
  · cases h
  · split at h
    · cases h
    · split at h
      · cases h
      · cases h; exact Still.nanLeaf _ _ _

theorem Still.cropAfterOverview {H : Heur} {s r : Obj} {y0 y1 x0 x1 : Int} {c : Option (List Nat)} {k : Int}
    (hs : Still prot none s) (h : cropAfterOverview H s y0 y1 x0 x1 c k = .ok r) : Still prot none r := by
  unfold Tree.cropAfterOverview at h
  dsimp only at h
  have ho : Still prot none (mkOverview s k) := ⟨rfl, hs⟩
  split at h
  · cases h
  · rename_i cr hcr
    have := ho.mkCrop hcr
    split at h
    · cases h; exact this
    · cases h; exact this

/-! #### runs -/

/-- The memo has only entries that keep what is known about the places of protected dequantizations. -/
def MemoStill (prot : Cell → Bool) (st : St) : Prop :=
  ∀ e ∈ st.memo, ∀ m, Still prot m e.1.2 → Still prot m e.2

/-- All protected dictionaries exist and the memo is good. -/
structure Guard (prot : Cell → Bool) (st : St) : Prop where
  old : ∀ c, prot c = true → c < st.sizes.length
  memo : MemoStill prot st

/-- The run keeps protected dictionaries. -/
structure Leaves (prot : Cell → Bool) {α : Type} (V : α → Prop) (st : St) (X : Py α × St) : Prop where
  same : ∀ c, prot c = true → X.2.sizes[c]? = st.sizes[c]?
  guard : Guard prot X.2
  ok : ∀ a, X.1 = .ok a → V a

theorem Leaves.bind {α β : Type} {V : α → Prop} {W : β → Prop} {x : Run α} {k : α → Run β} {st : St}
    (hx : Leaves prot V st (x st)) (hk : ∀ a st', Guard prot st' → V a → Leaves prot W st' (k a st')) :
    Leaves prot W st (andRun x k st) := by
  unfold andRun
  cases hX : x st with
  | mk r st' =>
    rw [hX] at hx
    cases r with
    | error e => exact ⟨hx.same, hx.guard, (fun a h => by cases h)⟩
    | ok a =>
      have h := hk a st' hx.guard (hx.ok a rfl)
      exact ⟨fun c hc => (h.same c hc).trans (hx.same c hc), h.guard, h.ok⟩

theorem Leaves.lift {α : Type} {V : α → Prop} {st : St} {x : Py α} (hg : Guard prot st)
    (h : ∀ a, x = .ok a → V a) : Leaves prot V st (lift x st) :=
  ⟨fun _ _ => rfl, hg, h⟩

theorem Leaves.ret {α : Type} {V : α → Prop} {st : St} {a : α} (hg : Guard prot st) (h : V a) :
    Leaves prot V st (ret a st) :=
  ⟨fun _ _ => rfl, hg, (fun _ h' => by cases h'; exact h)⟩

theorem Leaves.error {α : Type} {V : α → Prop} {st : St} {e : PyErr} (hg : Guard prot st) :
    Leaves prot V st (Tree.lift (.error e) st) :=
  Leaves.lift hg fun _ h => by cases h

/-- The recursive calls. -/
def RecLeaves (prot : Cell → Bool) (rec : Obj → Run Obj) : Prop :=
  ∀ (st : St) (x : Obj) (m : Place), Guard prot st → Still prot m x → Leaves prot (Still prot m) st (rec x st)

theorem Leaves.mapRun {f : Obj → Run Obj} : ∀ {ps : List Obj} {st : St}, Guard prot st →
    (∀ p ∈ ps, ∀ st' : St, Guard prot st' → Leaves prot (Still prot m) st' (f p st')) →
    Leaves prot (StillL prot m) st (mapRun f ps st)
  | [], st, hg, _ => Leaves.ret hg trivial
  | p :: ps, st, hg, h => by
    rw [Tree.mapRun]
    refine Leaves.bind (h p (by simp) st hg) fun a st1 hg1 ha => ?_
    refine Leaves.bind (Leaves.mapRun hg1 fun q hq st' hg' => h q (by simp [hq]) st' hg')
      fun as st2 hg2 has => ?_
    exact Leaves.ret hg2 ⟨ha, has⟩

theorem Leaves.newDequant {st : St} {s : Obj} {q : Quantization × Cell} (hg : Guard prot st)
    (hs : Still prot m s) : Leaves prot (Still prot m) st (newDequant s q st) := by
  have hnew : prot st.sizes.length = false := by
    cases h : prot st.sizes.length with
    | false => rfl
    | true => exact absurd (hg.old _ h) (lt_irrefl _)
  refine ⟨fun c hc => ?_, ⟨fun c hc => ?_, hg.memo⟩, fun a ha => ?_⟩
  · exact List.getElem?_append_left (hg.old c hc)
  · have := hg.old c hc
    simp only [Tree.newDequant, List.length_append]
    exact Nat.lt_add_right _ this
  · cases ha
    rw [Still, hnew]
    exact hs

/-- The source of a dequantization. -/
theorem Still.ofDequant {s : Obj} {q : Quantization × Cell} {d : Int × Int} (h : Still prot m (.dequant s q d)) :
    Still prot m s := by
  rw [Still] at h
  split at h
  · exact Still.le s m.deq_le h
  · exact h

theorem Still.withDequant {s s' : Obj} {q : Quantization × Cell} {d d' : Int × Int}
    (h : Still prot m (.dequant s q d)) (hs : ∀ m, Still prot m s → Still prot m s') :
    Still prot m (.dequant s' q d') := by
  rw [Still] at h ⊢
  exact hs _ h

theorem Leaves.reapplyM {op p : Obj} {ps : List Obj} {d : Int × Int} {st : St} (hg : Guard prot st)
    (hs : subOf op = .ok (some (.concat ps d))) (hop : Still prot m op) (hp : p ∈ ps) :
    Leaves prot (Still prot m) st (reapplyM op p st) := by
  cases op with
  | leaf l => simp [subOf] at hs
  | concat => simp [subOf] at hs
  | warp s tf dw a =>
    simp only [subOf, Except.ok.injEq, Option.some.injEq] at hs
    subst hs
    exact Leaves.lift hg fun a ha => by cases ha; exact (StillL_iff _).1 hop p hp
  | crop s y0 y1 x0 x1 c =>
    simp only [subOf, Except.ok.injEq, Option.some.injEq] at hs
    subst hs
    exact Leaves.lift (x := mkCrop p (ints y0 y1 x0 x1) c) hg fun a ha =>
      Still.mkCrop ((StillL_iff _).1 hop p hp) ha
  | overview s k dk =>
    simp only [subOf, Except.ok.injEq, Option.some.injEq] at hs
    subst hs
    exact Leaves.lift hg fun a ha => by cases ha; exact ⟨hop.1, (StillL_iff _).1 hop.2 p hp⟩
  | dequant s q dq =>
    simp only [subOf, Except.ok.injEq, Option.some.injEq] at hs
    subst hs
    exact Leaves.newDequant hg ((StillL_iff _).1 hop.ofDequant p hp)

theorem Leaves.pushUnderM {op : Obj} {ps : List Obj} {d : Int × Int} {st : St} (hg : Guard prot st)
    (hs : subOf op = .ok (some (.concat ps d))) (hop : Still prot m op) :
    Leaves prot (fun o => ∀ x, o = some x → Still prot m x) st (pushUnderM op ps st) := by
  rw [Tree.pushUnderM]
  refine Leaves.bind (Leaves.mapRun (m := m) hg fun p hp st' hg' => Leaves.reapplyM hg' hs hop hp)
    fun qs st' hg' hqs => ?_
  rcases mkConcat_cases qs with ⟨c, h⟩ | h | h
  · simp only [h]
    exact Leaves.ret hg' fun x hx => by cases hx; exact Still.mkConcat hqs h
  · simp only [h]
    exact Leaves.error hg'
  · simp only [h]
    exact Leaves.ret hg' fun x hx => by cases hx

variable {rec : Obj → Run Obj} {H : Heur}

theorem Leaves.finishM {new : Obj} {st : St} (hr : RecLeaves prot rec) (hg : Guard prot st)
    (hn : Still prot m new) : Leaves prot (Still prot m) st (finishM rec new st) := by
  cases hs : subOf new with
  | error e => simp only [Tree.finishM, hs]; exact Leaves.error hg
  | ok o =>
    cases o with
    | none => simp only [Tree.finishM, hs]; exact Leaves.ret hg hn
    | some x =>
      cases x with
      | concat ps d =>
        simp only [Tree.finishM, hs]
        refine Leaves.bind (Leaves.pushUnderM hg hs hn) fun o st' hg' ho => ?_
        cases o with
        | none => exact Leaves.ret hg' hn
        | some p => exact hr st' p m hg' (ho p rfl)
      | _ => simp only [Tree.finishM, hs]; exact Leaves.ret hg hn

theorem Leaves.absorbM {s : Obj} {tf : Affine} {d : Int × Int} {a : Algo} {st : St} (hg : Guard prot st)
    (hs : Still prot m.warp s) : Leaves prot (Still prot m) st (absorbM H s tf d a st) := by
  have hw := hs.writes (H := H) (tf := tf)
  refine ⟨fun c hc => ?_, ⟨fun c hc => ?_, hg.memo⟩, fun r hr => Still.absorb hs hr⟩
  · exact assign_get _ _ fun w hw' e => by
      have := hw w hw'
      rw [e, hc] at this
      cases this
  · have := hg.old c hc
    simp only [Tree.absorbM, assign_length]
    exact this

theorem Leaves.ownMemo {α : Type} {V : α → Prop} {x : Run α} {st : St} (hg : Guard prot st)
    (h : ∀ st' : St, Guard prot st' → Leaves prot V st' (x st')) : Leaves prot V st (ownMemo x st) := by
  have h' := h { st with memo := [] } ⟨hg.old, fun e he => by simp at he⟩
  unfold Tree.ownMemo
  cases hX : x { st with memo := [] } with
  | mk r st' =>
    rw [hX] at h'
    exact ⟨h'.same, ⟨h'.guard.old, hg.memo⟩, h'.ok⟩

theorem Leaves.splitM {s : Obj} {tf : Affine} {d : Int × Int} {a : Algo} {st : St} (hr : RecLeaves prot rec)
    (hg : Guard prot st) (hs : Still prot m.warp s) :
    Leaves prot (fun o => ∀ x, o = some x → Still prot m x) st (splitM H rec s tf d a st) := by
  have hnone : Leaves prot (fun o : Option Obj => ∀ x, o = some x → Still prot m x) st (Tree.ret none st) :=
    Leaves.ret hg fun _ h => by cases h
  unfold Tree.splitM
  cases ho : s.numOverviews with
  | error e => exact Leaves.error hg
  | ok o =>
    cases o with
    | none => exact hnone
    | some num =>
      dsimp only
      by_cases h0 : num = 0
      · rw [if_pos h0]; exact hnone
      rw [if_neg h0]
      have hm : m = none := by
        cases m with
        | none => rfl
        | some b => exact absurd (Still.overviews s hs num ho) h0
      subst hm
      have hov : Still prot none (mkOverview s (min num (H.downs tf))) := ⟨rfl, hs⟩
      by_cases h1 : (!H.canSplit tf) = true
      · rw [if_pos h1]; exact hnone
      rw [if_neg h1]
      by_cases h2 : min num (H.downs tf) = 0
      · rw [if_pos h2]; exact hnone
      rw [if_neg h2]
      generalize mkOverview s (min num (H.downs tf)) = ov at hov
      by_cases h3 : H.closeId (tf * (ovScale (min num (H.downs tf))).inv) = true
      · rw [if_pos h3]
        by_cases h4 : ov.dsize ≠ d
        · rw [if_pos h4]
          cases hc : paddedCrop ov 0 d.2 0 d.1 ((0, 0), (0, 0)) with
          | error e => exact Leaves.error hg
          | ok c =>
            refine Leaves.bind (Leaves.ownMemo hg fun st' hg' => hr st' c none hg' (hov.paddedCrop hc))
              fun r st' hg' hrr => ?_
            exact Leaves.ret hg' fun x hx => by cases hx; exact hrr
        · rw [if_neg h4]
          exact Leaves.ret hg fun x hx => by cases hx; exact hov
      · rw [if_neg h3]
        exact Leaves.ret hg fun x hx => by cases hx; exact hov

/-- The conditions on the source of an operation. -/
theorem Still.sub {n x : Obj} (hn : Still prot m n) (h : subOf n = .ok (some x)) : ∃ m', Still prot m' x ∧
    ∀ {x' : Obj}, Still prot m' x' → Still prot m (setSub n x') := by
  cases n with
  | leaf => simp [subOf] at h
  | concat => simp [subOf] at h
  | warp s tf d a => cases h; exact ⟨_, hn, fun h => h⟩
  | crop s y0 y1 x0 x1 c => cases h; exact ⟨_, hn, fun h => h⟩
  | overview s k d => cases h; exact ⟨_, hn.2, fun h => ⟨hn.1, h⟩⟩
  | dequant s q d => cases h; exact ⟨_, hn, fun h => h⟩

theorem Leaves.afterSplitM {s : Obj} {tf : Affine} {d : Int × Int} {a : Algo} {st : St} {o : Option Obj}
    (hr : RecLeaves prot rec) (hg : Guard prot st) (hs : Still prot m.warp s)
    (ho : ∀ x, o = some x → Still prot m x) :
    Leaves prot (Still prot m) st (afterSplitM H rec s tf d a o st) := by
  cases o with
  | none => exact Leaves.absorbM hg hs
  | some new =>
    simp only [Tree.afterSplitM]
    cases hx : subOf new with
    | error e => exact Leaves.error hg
    | ok o =>
      cases o with
      | none => exact Leaves.error hg
      | some x =>
        obtain ⟨m', h1, h2⟩ := (ho new rfl).sub hx
        refine Leaves.bind (hr st x m' hg h1) fun x' st' hg' hx' => ?_
        exact hr st' _ m hg' (h2 hx')

theorem Leaves.warpRestM {s : Obj} {tf : Affine} {d : Int × Int} {a : Algo} {st : St}
    (hr : RecLeaves prot rec) (hg : Guard prot st) (hs : Still prot m.warp s) :
    Leaves prot (Still prot m) st (warpRestM H rec s tf d a st) := by
  unfold Tree.warpRestM
  split
  · exact Leaves.ret hg (Still.le s m.warp_le hs)
  · split
    · rename_i ps e _
      have hop : Still prot m (.warp (.concat ps e) tf d a) := hs
      refine Leaves.bind (Leaves.pushUnderM hg rfl hop) fun o st' hg' ho => ?_
      cases o with
      | none => exact Leaves.ret hg' hop
      | some p => exact hr st' p m hg' (ho p rfl)
    · cases nanOf s with
      | some l => exact hr st _ m hg (Still.nanLeaf _ _ _)
      | none => exact Leaves.bind (Leaves.splitM hr hg hs) fun o st' hg' ho => Leaves.afterSplitM hr hg' hs ho

theorem Leaves.optWarpM {s : Obj} {tf : Affine} {d : Int × Int} {a : Algo} {st : St}
    (hr : RecLeaves prot rec) (hg : Guard prot st) (hs : Still prot m.warp s) :
    Leaves prot (Still prot m) st (optWarpM H rec s tf d a st) := by
  rw [Tree.optWarpM]
  refine Leaves.bind (hr st s _ hg hs) fun s' st' hg' hs' => ?_
  cases s' with
  | warp s1 tf1 d1 a1 =>
    rw [Still, Place.warp_warp] at hs'
    exact Leaves.warpRestM hr hg' hs'
  | _ => exact Leaves.warpRestM hr hg' hs'

theorem Leaves.cropConcatM {ps : List Obj} {d : Int × Int} {y0 y1 x0 x1 : Int} {c : Option (List Nat)} {st : St}
    (hr : RecLeaves prot rec) (hg : Guard prot st) (hs : StillL prot m ps) :
    Leaves prot (Still prot m) st (cropConcatM rec ps d y0 y1 x0 x1 c st) := by
  unfold Tree.cropConcatM
  have hps : Still prot m (.concat ps d) := hs
  refine Leaves.bind (V := Still prot m) ?_ fun taken st1 hg1 ht => ?_
  · cases c with
    | none => exact Leaves.ret hg hps
    | some c =>
      exact Leaves.bind (V := Still prot m) (Leaves.lift hg fun a ha => Still.take _ hps ha)
        fun t st1 hg1 ht => hr st1 t m hg1 ht
  · refine Leaves.bind (V := fun a => Still prot m a ∧ subOf a = .ok (some taken)) ?_
      fun cr st2 hg2 hcr => ?_
    · refine Leaves.lift hg1 fun a h => ⟨ht.mkCrop h, ?_⟩
      obtain ⟨_, _, _, _, rfl⟩ := mkCrop_shape h
      rfl
    · obtain ⟨hcr, hsc⟩ := hcr
      cases taken with
      | concat qs dq =>
        refine Leaves.bind (Leaves.pushUnderM hg2 hsc hcr) fun o st3 hg3 ho => ?_
        cases o with
        | none => exact hr st3 cr m hg3 hcr
        | some p => exact hr st3 p m hg3 (ho p rfl)
      | _ => exact hr st2 cr m hg2 hcr

theorem Leaves.finishCropM {new : Obj} {st : St} (hr : RecLeaves prot rec) (hg : Guard prot st)
    (hn : Still prot m new) : Leaves prot (Still prot m) st (finishCropM rec new st) := by
  cases new with
  | crop s y0 y1 x0 x1 c =>
    cases s with
    | concat ps d => exact Leaves.cropConcatM hr hg hn
    | _ => exact Leaves.finishM hr hg hn
  | _ => exact Leaves.finishM hr hg hn

theorem Leaves.cropRestM {s : Obj} {y0 y1 x0 x1 : Int} {c : Option (List Nat)} {st : St}
    (hr : RecLeaves prot rec) (hg : Guard prot st) (hs : Still prot m s) :
    Leaves prot (Still prot m) st (cropRestM rec s y0 y1 x0 x1 c st) := by
  have hfin := Leaves.finishCropM (new := .crop s y0 y1 x0 x1 c) hr hg hs
  cases s with
  | warp x tf dw a =>
    simp only [Tree.cropRestM]
    split
    · exact Leaves.ret hg hs
    · refine Leaves.bind (V := fun o => ∀ i t, o = some (i, t) → Still prot m.warp i)
        (Leaves.lift hg fun o h i t hi => ?_) fun o st' hg' ho => ?_
      · rw [hi] at h
        exact Still.warpAfterCrop (s := x) hs h
      · cases o with
        | none => exact Leaves.ret hg' hs
        | some r =>
          obtain ⟨inner, tf'⟩ := r
          have hi : Still prot m.warp inner := ho inner tf' rfl
          exact Leaves.bind (hr st' (.warp inner tf' (x1 - x0, y1 - y0) a.common) m hg' hi)
            fun r st'' hg'' hrr => Leaves.finishCropM hr hg'' hrr
  | dequant x q dq =>
    simp only [Tree.cropRestM]
    refine Leaves.bind (Leaves.newDequant (m := m) hg (s := .crop x y0 y1 x0 x1 c) hs.ofDequant)
      fun w st1 hg1 hw => ?_
    exact Leaves.bind (hr st1 w m hg1 hw) fun r st2 hg2 hrr => Leaves.finishCropM hr hg2 hrr
  | _ => exact hfin

theorem Leaves.optCropM {s : Obj} {y0 y1 x0 x1 : Int} {c : Option (List Nat)} {st : St}
    (hr : RecLeaves prot rec) (hg : Guard prot st) (hs : Still prot m s) :
    Leaves prot (Still prot m) st (optCropM rec s y0 y1 x0 x1 c st) := by
  unfold Tree.optCropM
  refine Leaves.bind (hr st s m hg hs) fun s' st1 hg1 hs' => ?_
  refine Leaves.bind (V := Still prot m) (Leaves.lift hg1 ?_) fun n st2 hg2 hn => ?_
  · cases s' with
    | crop s1 iy0 iy1 ix0 ix1 ic => exact fun a ha => Still.fuseCrops (s := s1) hs' ha
    | _ => exact fun a ha => by cases ha; exact hs'
  · cases n with
    | crop s2 y0' y1' x0' x1' c' =>
      dsimp only
      cases nanOf s2 with
      | some l =>
        exact Leaves.bind (V := Still prot m) (Leaves.lift hg2 fun a ha => Still.nanCrop ha)
          fun a st3 hg3 ha => hr st3 a m hg3 ha
      | none => exact Leaves.cropRestM hr hg2 hn
    | _ => exact Leaves.ret hg2 hn

theorem Leaves.overviewRestM {s : Obj} {k : Int} {d : Int × Int} {st : St}
    (hr : RecLeaves prot rec) (hg : Guard prot st) (hs : Still prot none s) :
    Leaves prot (Still prot none) st (overviewRestM H rec s k d st) := by
  by_cases hk : k = 0
  · simp only [Tree.overviewRestM, if_pos hk]
    exact Leaves.finishM hr hg hs
  have hfin := Leaves.finishM (m := none) (new := .overview s k d) hr hg ⟨rfl, hs⟩
  cases s with
  | crop x y0 y1 x0 x1 c =>
    simp only [Tree.overviewRestM, if_neg hk]
    refine Leaves.bind (V := Still prot none) (Leaves.lift hg fun a ha => Still.cropAfterOverview (s := x) hs ha)
      fun w st1 hg1 hw => ?_
    exact Leaves.bind (hr st1 w none hg1 hw) fun r st2 hg2 hrr => Leaves.finishM hr hg2 hrr
  | warp x tf dw a =>
    simp only [Tree.overviewRestM, if_neg hk]
    have hw : Still prot none (warpAfterOverview x tf k) := ⟨rfl, hs⟩
    exact Leaves.bind (hr st _ none hg hw) fun r st2 hg2 hrr => Leaves.finishM hr hg2 hrr
  | dequant x q dq =>
    simp only [Tree.overviewRestM, if_neg hk]
    have ho : Still prot none (.overview x k d) := ⟨rfl, hs.ofDequant⟩
    refine Leaves.bind (Leaves.newDequant (m := none) hg ho) fun w st1 hg1 hw => ?_
    exact Leaves.bind (hr st1 w none hg1 hw) fun r st2 hg2 hrr => Leaves.finishM hr hg2 hrr
  | _ =>
    simp only [Tree.overviewRestM, if_neg hk]
    exact hfin

theorem Leaves.optOverviewM {s : Obj} {k : Int} {d : Int × Int} {st : St}
    (hr : RecLeaves prot rec) (hg : Guard prot st) (hs : Still prot none s) :
    Leaves prot (Still prot none) st (optOverviewM H rec s k d st) := by
  rw [Tree.optOverviewM]
  refine Leaves.bind (hr st s none hg hs) fun s' st' hg' hs' => ?_
  cases s' with
  | overview s1 k1 d1 => exact Leaves.overviewRestM hr hg' hs'.2
  | _ => exact Leaves.overviewRestM hr hg' hs'

theorem Leaves.optDequantM {s : Obj} {q : Quantization × Cell} {d : Int × Int} {st : St}
    (hr : RecLeaves prot rec) (hg : Guard prot st) (hs : Still prot m (.dequant s q d)) :
    Leaves prot (Still prot m) st (optDequantM rec s q d st) := by
  rw [Tree.optDequantM]
  refine Leaves.bind (hr st s (if prot q.2 then m.deq else m) hg (by rw [Still] at hs; exact hs))
    fun s' st' hg' hs' => ?_
  have hn : Still prot m (.dequant s' q d) := by rw [Still]; exact hs'
  have hfin := Leaves.finishM hr hg' hn
  cases s' with
  | dequant _ _ _ => exact Leaves.error hg'
  | warp x tf dw a =>
    have hw : Still prot m.warp x := hn.ofDequant
    refine Leaves.bind (Leaves.newDequant (q := q) hg' hw) fun w st1 hg1 hw => ?_
    exact Leaves.bind (hr st1 (.warp w tf dw a) m hg1 hw) fun r st2 hg2 hrr => Leaves.finishM hr hg2 hrr
  | _ => exact hfin

theorem Leaves.optConcatM {ps : List Obj} {d : Int × Int} {st : St} (hr : RecLeaves prot rec)
    (hg : Guard prot st) (hs : StillL prot m ps) :
    Leaves prot (Still prot m) st (optConcatM rec ps d st) := by
  rw [Tree.optConcatM]
  refine Leaves.bind (Leaves.mapRun (m := m) hg fun p hp st' hg' =>
    hr st' p m hg' ((StillL_iff _).1 hs p hp)) fun qs st' hg' hqs => ?_
  rcases mkConcat_cases (refreshL st'.sizes qs) with ⟨c, h⟩ | h | h
  · simp only [h]
    exact Leaves.ret hg' (Still.mkConcat ((StillL.refresh_iff qs).2 hqs) h)
  · simp only [h]
    exact Leaves.error hg'
  · simp only [h]
    exact Leaves.ret (a := (.concat (refreshL st'.sizes ps) d : Obj)) hg' ((StillL.refresh_iff ps).2 hs)

theorem Leaves.optStepM {x : Obj} {st : St} (hr : RecLeaves prot rec) (hg : Guard prot st)
    (hs : Still prot m x) : Leaves prot (Still prot m) st (optStepM H rec x st) := by
  cases x with
  | leaf l => exact Leaves.ret hg hs
  | concat ps d => exact Leaves.optConcatM hr hg hs
  | warp s tf d a => exact Leaves.optWarpM hr hg hs
  | crop s y0 y1 x0 x1 c => exact Leaves.optCropM hr hg hs
  | overview s k d =>
    obtain ⟨rfl, hs⟩ := hs
    exact Leaves.optOverviewM hr hg hs
  | dequant s q d => exact Leaves.optDequantM hr hg hs

/-- `optimize` leaves protected dictionaries as they are. -/
theorem leaves (H : Heur) (ident : Ident) : ∀ f, RecLeaves prot (optM H ident f)
  | 0 => fun st x m hg _ => Leaves.error hg
  | f + 1 => by
    intro st x m hg hx
    have hstep : ∀ m, Still prot m x → Leaves prot (Still prot m) { st with calls := st.calls + 1 }
        (optStepM H (optM H ident f) (refresh st.sizes x) { st with calls := st.calls + 1 }) := fun m hx =>
      Leaves.optStepM (leaves H ident f) ⟨hg.old, hg.memo⟩ ((Still.refresh_iff x).2 hx)
    have h0 := hstep m hx
    unfold optM memoized
    dsimp only
    cases hl : st.memo.lookup (ident st.calls (refresh st.sizes x), bare x) with
    | some r =>
      refine ⟨fun _ _ => rfl, ⟨hg.old, hg.memo⟩, fun a ha => ?_⟩
      cases ha
      exact (Still.refresh_iff r).2 (hg.memo _ (lookup_mem hl) m ((Still.bare_iff x).2 hx))
    | none =>
      dsimp only
      cases hX : optStepM H (optM H ident f) (refresh st.sizes x) { st with calls := st.calls + 1 } with
      | mk r st' =>
        rw [hX] at h0
        cases r with
        | error e => exact ⟨h0.same, h0.guard, (fun _ h => by cases h)⟩
        | ok r =>
          dsimp only
          refine ⟨h0.same, ⟨h0.guard.old, fun e he m' hm' => ?_⟩, fun a ha => ?_⟩
          · rcases List.mem_cons.1 he with rfl | he
            · have h5 := hstep m' ((Still.bare_iff x).1 hm')
              rw [hX] at h5
              exact h5.ok r rfl
            · exact h0.guard.memo e he m' hm'
          · cases ha
            exact (Still.refresh_iff r).2 (h0.ok r rfl)

end Tree
end Verif
