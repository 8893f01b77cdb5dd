/-
What follows from C36 on arrays of images with overviews whose crops start and end on pixels of the overviews taken
after them.
-/
import Verif.Props.Blocks
import Verif.Props.OnceMore
import Verif.Props.Needed
import Verif.Props.Parts
import Verif.Props.Types

namespace Verif
namespace Props

open Tree Tree.Node Helpers

variable {V : Type} {H : Heur} {E : Env V} {ov : Nat → Img V → Img V}

/-! #### C51 -/

/-- C51 for these images: evaluating in the middle of a chain of operations changes nothing. -/
theorem C51_middle_snug_partial (hH : H.closeOff 0 0 = true) (hE : Env.Blocks E ov) (hS : Env.Shaped E) (hR : Env.Reads E)
    {n : Node} (hb : Built n) (hn : Paced 0 n) (he : Snug 0 n) (hm : Each E.Matches n) (fuel : Nat) {o : Node}
    (h : opt H fuel n = .ok o) (fresh : Nat) (ss : List Act) :
    ∃ m E', evaluate H E fuel n fresh = .ok (m, E') ∧ Follows E n E' m ss := by
  obtain ⟨i, j, h1, h2, h3⟩ := C36_arrays_snug_partial H hH hE hb hn he hm fuel h
  have := fin_shape hS n hb.ok.1 hb.ok.2 hm i h1
  exact C51_operations H E hR fuel n fresh i j (by rw [finalize, h]; exact h2) h1 h3 (by rw [← h3.n, this.n]) ss

/-- `cornerEnv` with resizing and overviews that look at pixels only. -/
def steadyEnv : Env (Nat × Nat × Nat) := { cornerEnv with
  resize := fun d i => i.shift 0 0 d (9, 9, 9)
  overview := fun _ k i => ⟨(ovSize k i.h).toNat, (ovSize k i.w).toNat, i.n, fun y x c =>
    if 0 ≤ k then i.px (2 ^ k.toNat * y) (2 ^ k.toNat * x) c else (9, 9, 9)⟩ }

theorem steadyEnv_blocks : Env.Blocks steadyEnv cornerOv :=
  corner_blocks (fun _ k i => by simp [steadyEnv, cornerOv]) (fun _ => rfl)

theorem steadyEnv_shaped : Env.Shaped steadyEnv := ⟨fun _ _ _ _ => rfl, fun _ _ => rfl, fun _ _ _ => rfl⟩

theorem steadyEnv_reads : Env.Reads steadyEnv :=
  ⟨fun _ _ _ _ _ h => same_shift h .., fun _ _ _ h => same_shift h ..⟩

/-- `cornerView` evaluated, then enlarged and cropped. -/
example : ∃ m E', evaluate Heur.code steadyEnv 60 cornerView 7 = .ok (m, E') ∧
    Follows steadyEnv cornerView E' m
      [.warp ⟨2, 0, 0, 0, 3, 0⟩ none .default, .crop (some ((some 1, none), (none, none))) (some [4, 1])] := by
  obtain ⟨h1, h2, h3, _, m, h4, _⟩ := cornerView_ok
  exact C51_middle_snug_partial closeOff_zero steadyEnv_blocks steadyEnv_shaped steadyEnv_reads h1 h2 h3
    cornerView_fair.2.2.2 60 h4 7 _

/-- Overviews are computed from the pixels of an array, not read from the file. -/
def Env.Simulates (E : Env V) : Prop := ∀ s t k {i j : Img V}, i.Same j → (E.overview s k i).Same (E.overview t k j)

/-- Operations and overviews, in order. -/
def runSteps (n : Node) : List (Act ⊕ Int) → Py Node
  | [] => .ok n
  | .inl s :: ss =>
    match s.run n with
    | .error e => .error e
    | .ok m => runSteps m ss
  | .inr k :: ss => runSteps (mkOverview n k) ss

theorem Alike.overview {E E' : Env V} (hO : Env.Simulates E) (hE : E' = { E with img := E'.img }) {m m' : Node}
    (h : Alike E E' m m') (k : Int) : Alike E E' (mkOverview m k) (mkOverview m' k) := by
  obtain ⟨h1, h2, h3, h4⟩ := h
  have ho : ∀ s k i, E'.overview s k i = E.overview s k i := by intro s k i; rw [hE]
  refine ⟨by simp only [mkOverview, h1]; rfl, h2, h3, ?_⟩
  simp only [mkOverview, Tree.fin, ho]
  cases e : Tree.fin E m with
  | error e' =>
    cases e' : Tree.fin E' m' with
    | error e'' => rw [e, e'] at h4; exact h4
    | ok i => rw [e, e'] at h4; exact h4.elim
  | ok i =>
    cases e' : Tree.fin E' m' with
    | error e'' => rw [e, e'] at h4; exact h4.elim
    | ok i => rw [e, e'] at h4; exact hO _ _ k h4

theorem Alike.steps {E E' : Env V} (hR : Env.Reads E) (hO : Env.Simulates E) (hE : E' = { E with img := E'.img }) :
    ∀ (ss : List (Act ⊕ Int)) {m m' : Node}, Alike E E' m m' →
    match runSteps m ss with
    | .error e => runSteps m' ss = .error e
    | .ok r => ∃ r', runSteps m' ss = .ok r' ∧ Alike E E' r r'
  | [], m, m', h => ⟨m', rfl, h⟩
  | .inl s :: ss, m, m', h => by
    have hs := h.step hR hE s
    simp only [runSteps]
    cases e : s.run m with
    | error e' => simp only [e] at hs; simp only [hs]
    | ok r =>
      simp only [e] at hs
      obtain ⟨r', h1, h2⟩ := hs
      simp only [h1]
      exact Alike.steps hR hO hE ss h2
  | .inr k :: ss, m, m', h => Alike.steps hR hO hE ss (h.overview hO hE k)

/-- C51, also with overviews afterwards, if overviews are simulated in the same way before and after: operations on an
evaluated image raise the same errors, announce the same and finalize to the same arrays as operations on the image, if
optimizing the image does not change its array. -/
theorem C51_overview_steps (H : Heur) (E : Env V) (hR : Env.Reads E) (hO : Env.Simulates E) (fuel : Nat) (n : Node)
    (fresh : Nat) (i j : Img V) (h : finalize H E fuel n = .ok j) (hf : fin E n = .ok i) (hij : i.Same j)
    (hc : j.n = n.nchan) (ss : List (Act ⊕ Int)) :
    ∃ m E', evaluate H E fuel n fresh = .ok (m, E') ∧
      match runSteps n ss with
      | .error e => runSteps m ss = .error e
      | .ok r => ∃ r', runSteps m ss = .ok r' ∧ r'.dsize = r.dsize ∧ r'.channels = r.channels ∧ r'.nchan = r.nchan ∧
          Agree (fin E' r') (fin E r) := by
  refine ⟨.leaf ⟨fresh, n.dsize, j.n, n.channels, none, false⟩,
    { E with img := fun k => if k = fresh then j else E.img k }, by rw [evaluate, h], ?_⟩
  have ha : Alike E { E with img := fun k => if k = fresh then j else E.img k } n
      (.leaf ⟨fresh, n.dsize, j.n, n.channels, none, false⟩) := by
    refine ⟨rfl, rfl, hc, ?_⟩
    simp only [fin, hf, if_true]
    exact same_symm hij
  have := Alike.steps hR hO rfl ss ha
  cases e : runSteps n ss with
  | error e' => simpa only [e] using this
  | ok r =>
    simp only [e] at this
    obtain ⟨r', h1, h2⟩ := this
    exact ⟨r', h1, h2.dsize, h2.channels, h2.nchan, h2.fin⟩

/-- A file whose stored overviews are not those that would be simulated. -/
def storedEnv : Env (Nat × Nat × Nat) := { cornerEnv with
  overview := fun s k i => if s = .leaf pyramid then ⟨(ovSize k i.h).toNat, (ovSize k i.w).toNat, i.n, fun _ _ _ => (1, 1, 1)⟩
    else cornerEnv.overview s k i }

/-- C51 fails for overviews stored in a file: an evaluated image has none, so they are simulated. -/
theorem C51_stored_violated : Built (.leaf pyramid) ∧ Each storedEnv.Matches (.leaf pyramid) ∧
    ∃ m E', evaluate Heur.code storedEnv 60 (.leaf pyramid) 7 = .ok (m, E') ∧
      (∃ i, fin storedEnv (mkOverview (.leaf pyramid) 1) = .ok i ∧ i.px 2 3 0 = (1, 1, 1)) ∧
      ∃ j, fin E' (mkOverview m 1) = .ok j ∧ j.px 2 3 0 = (4, 6, 0) := by
  refine ⟨pyramid_built, fun _ => ⟨rfl, rfl, rfl⟩, ?_⟩
  obtain ⟨i, hi, e⟩ := holds_ok (x := finalize Heur.code storedEnv 60 (.leaf pyramid))
    (f := fun i => decide (i.px 4 6 0 = (4, 6, 0))) (by decide +kernel)
  refine ⟨_, _, by rw [evaluate, hi], ⟨_, rfl, rfl⟩, _, rfl, ?_⟩
  exact of_decide_eq_true e

/-! #### C61 -/

/-- C61 for these images: `image[key].finalize()` is `image.finalize()[key]`. -/
theorem C61_finalize_snug_partial (hE : Env.Blocks E ov) (hS : Env.Shaped E) {n : Node} (hb : Built n) (hn : Paced 0 n)
    (he : Snug 0 n) (hco : Coarse n) (hf : Fair n) (hd : deqs n ≤ 1) (hm : Each E.Matches n) {k : Index}
    (hk : Index.Ok n k) : ∃ t i F, getitem n k = .ok t ∧ ∀ f, F ≤ f → finalize Heur.code E f n = .ok i ∧
      Agree (finalize Heur.code E f t) (npItem i k) := by
  obtain ⟨sl, c, ek, hc, hce, enp⟩ : ∃ sl c, getitem n k = crop n (some sl) c true true (.int 0) false ∧
      IdxOk n.nchan c ∧ c ≠ some [] ∧ ∀ i : Img V, npItem i k = (i.slice sl.1 sl.2).select c := by
    cases k with
    | two sl => exact ⟨sl, none, rfl, trivial, by simp, fun _ => rfl⟩
    | three sl c => exact ⟨sl, some c, rfl, hk.2, by simp [hk.1], fun _ => rfl⟩
    | single => exact hk.elim
    | more => exact hk.elim
  have em : crop n (some sl) c true true (.int 0) false = mkCrop n (some sl) c := by simp [Tree.crop, Pad.truthy]
  obtain ⟨t, et⟩ : ∃ t, mkCrop n (some sl) c = .ok t := mkCrop_total' hb.ok.1 hc _
  obtain ⟨y0, y1, x0, x1, rfl⟩ := mkCrop_form et
  have hbt : Built (.crop n y0 y1 x0 x1 c) := .crop n _ (some sl) c hb hc et
  have hpt : Paced 0 (.crop n y0 y1 x0 x1 c) := ⟨⟨by simp, by simp⟩, hn⟩
  have hst : Snug 0 (.crop n y0 y1 x0 x1 c) := ⟨⟨.inl (by simp), .inl (by simp)⟩, he⟩
  obtain ⟨m, F, h⟩ := C55_paced_partial hb hn hco hf hd
  obtain ⟨m', F', h'⟩ := C55_paced_partial hbt hpt hco ⟨hf, hce⟩ hd
  obtain ⟨i0, i, e0, e1, s1⟩ := C36_arrays_snug_partial Heur.code closeOff_zero hE hb hn he hm F (h F (le_refl _))
  obtain ⟨j0, j, e2, e3, s2⟩ := C36_arrays_snug_partial Heur.code closeOff_zero hE hbt hpt hst hm F' (h' F' (le_refl _))
  refine ⟨.crop n y0 y1 x0 x1 c, i, max F F', by rw [ek, em, et], fun f hf => ?_⟩
  have hag := C24_crop_is_numpy_slice E n i0 e0 (C45_announced_shape hS hb hm e0) sl c
  rw [em, et] at hag
  simp only [pixels, e2] at hag
  refine ⟨by rw [finalize, h f (le_trans (le_max_left _ _) hf)]; exact e1, ?_⟩
  have e4 : finalize Heur.code E f (.crop n y0 y1 x0 x1 c) = .ok j := by
    rw [finalize, h' f (le_trans (le_max_right _ _) hf)]; exact e3
  rw [e4, enp]
  have hss := same_select (same_slice s1 sl.1 sl.2) c
  cases e5 : (i0.slice sl.1 sl.2).select c with
  | error e => rw [e5] at hag; exact hag.elim
  | ok a =>
    rw [e5] at hag hss
    cases e6 : (i.slice sl.1 sl.2).select c with
    | error e => rw [e6] at hss; exact hss.elim
    | ok b =>
      rw [e6] at hss
      exact same_trans (same_symm s2) (same_trans hag hss)

/-- Channels of both pictures of `cornerView`. -/
example : ∃ t i F, getitem cornerView (.three ((none, none), (some (-1), none)) [4, 1]) = .ok t ∧ ∀ f, F ≤ f →
    finalize Heur.code cornerEnv f cornerView = .ok i ∧ Agree (finalize Heur.code cornerEnv f t)
      (npItem i (.three ((none, none), (some (-1), none)) [4, 1])) :=
  C61_finalize_snug_partial cornerEnv_blocks cornerEnv_shaped cornerView_ok.1 cornerView_ok.2.1 cornerView_ok.2.2.1
    cornerView_fair.1 cornerView_fair.2.1 cornerView_fair.2.2.1 cornerView_fair.2.2.2 ⟨by simp, by decide⟩

/-! #### C82 -/

theorem partsOf_paced {L : Nat} {n : Node} (h : Paced L n) : ∀ p ∈ partsOf n, Paced L p := by
  cases n with
  | concat ps d => exact (pacedL_iff ps).1 h
  | leaf l => simpa [partsOf] using h
  | warp s tf d a => simpa [partsOf] using h
  | crop s y0 y1 x0 x1 c => simpa [partsOf] using h
  | overview s k d => simpa [partsOf] using h
  | dequant s q d => simpa [partsOf] using h

theorem partsOf_snug {L : Nat} {n : Node} (h : Snug L n) : ∀ p ∈ partsOf n, Snug L p := by
  cases n with
  | concat ps d => exact (snugL_iff ps).1 h
  | leaf l => simpa [partsOf] using h
  | warp s tf d a => simpa [partsOf] using h
  | crop s y0 y1 x0 x1 c => simpa [partsOf] using h
  | overview s k d => simpa [partsOf] using h
  | dequant s q d => simpa [partsOf] using h

mutual
theorem ungroup_paced : ∀ (n : Node) (L : Nat), Paced L n → Paced L (ungroup n)
  | .leaf _, _, _ => trivial
  | .concat ps _, L, h => ungroupL_paced ps L h
  | .warp _ _ _ _, _, h => h.elim
  | .crop s _ _ _ _ _, L, h => ⟨h.1, ungroup_paced s L h.2⟩
  | .overview s _ _, _, h => ⟨h.1, ungroup_paced s _ h.2⟩
  | .dequant s _ _, L, h => ungroup_paced s L h
theorem ungroupL_paced : ∀ (ps : List Node) (L : Nat), PacedL L ps → PacedL L (ungroupL ps)
  | [], _, _ => trivial
  | p :: ps, L, h => by
    have h1 := partsOf_paced (ungroup_paced p L h.1)
    have h2 := (pacedL_iff _).1 (ungroupL_paced ps L h.2)
    rw [ungroupL, pacedL_iff]
    intro q hq
    rcases List.mem_append.1 hq with hq | hq
    · exact h1 q hq
    · exact h2 q hq
end

mutual
theorem ungroup_snug : ∀ (n : Node) (L : Nat), Snug L n → Snug L (ungroup n)
  | .leaf _, _, _ => trivial
  | .concat ps _, L, h => ungroupL_snug ps L h
  | .warp s _ _ _, L, h => ungroup_snug s L h
  | .crop s _ _ _ _ _, L, h => ⟨by rw [ungroup_dsize]; exact h.1, ungroup_snug s L h.2⟩
  | .overview s _ _, _, h => ungroup_snug s _ h
  | .dequant s _ _, L, h => ungroup_snug s L h
theorem ungroupL_snug : ∀ (ps : List Node) (L : Nat), SnugL L ps → SnugL L (ungroupL ps)
  | [], _, _ => trivial
  | p :: ps, L, h => by
    have h1 := partsOf_snug (ungroup_snug p L h.1)
    have h2 := (snugL_iff _).1 (ungroupL_snug ps L h.2)
    rw [ungroupL, snugL_iff]
    intro q hq
    rcases List.mem_append.1 hq with hq | hq
    · exact h1 q hq
    · exact h2 q hq
end

/-- C82 for these images: `finalize()`, which optimizes, gives the same array with and without groups. -/
theorem C82_optimized_snug_partial (hH : H.closeOff 0 0 = true) (hE : Env.Blocks E ov) (hG : Groupless E) {n : Node}
    (hb : Built n) (hn : Paced 0 n) (he : Snug 0 n) (hm : Each E.Matches n) {fuel fuel' : Nat} {m m' : Node}
    (h : opt H fuel n = .ok m) (h' : opt H fuel' (ungroup n) = .ok m') :
    ∃ a b, finalize H E fuel n = .ok a ∧ finalize H E fuel' (ungroup n) = .ok b ∧ a.Same b := by
  obtain ⟨i, a, hi, ha, s1⟩ := C36_arrays_snug_partial H hH hE hb hn he hm fuel h
  obtain ⟨j, b, hj, hb', s2⟩ := C36_arrays_snug_partial H hH hE (ungroup_built hb) (ungroup_paced n 0 hn)
    (ungroup_snug n 0 he) ((ungroup_each n).2 hm) fuel' h'
  rw [(ungroup_fin hG n hb.ok.1 i).2 hi] at hj
  cases hj
  exact ⟨a, b, by rw [finalize, h]; exact ha, by rw [finalize, h']; exact hb', same_trans (same_symm s1) s2⟩

/-- `cornerView` in a group in a group. -/
example : ∃ a b, finalize Heur.code cornerEnv 80 (.concat [.concat [cornerView, cornerView] (1, 1), cornerView] (1, 1)) =
      .ok a ∧
    finalize Heur.code cornerEnv 80 (.concat [cornerView, cornerView, cornerView] (1, 1)) = .ok b ∧ a.Same b := by
  obtain ⟨h1, h2, h3, -⟩ := cornerView_ok
  have h5 := cornerView_fair.2.2.2
  have ed : cornerView.dsize = (1, 1) := by decide +kernel
  let n : Node := .concat [.concat [cornerView, cornerView] (1, 1), cornerView] (1, 1)
  have hb : Built n := by
    refine .concat [.concat [cornerView, cornerView] (1, 1), cornerView] _ ?_ (by decide +kernel)
    intro p hp
    simp only [List.mem_cons, List.not_mem_nil, or_false] at hp
    rcases hp with rfl | rfl
    · refine .concat [cornerView, cornerView] _ ?_ (by decide +kernel)
      intro p hp
      simp only [List.mem_cons, List.not_mem_nil, or_false] at hp
      rcases hp with rfl | rfl <;> exact h1
    · exact h1
  obtain ⟨m, e, _⟩ := holds_ok (x := opt Heur.code 80 n) (f := fun _ => true) (by decide +kernel)
  obtain ⟨m', e', _⟩ := holds_ok (x := opt Heur.code 80 (ungroup n)) (f := fun _ => true) (by decide +kernel)
  exact C82_optimized_snug_partial closeOff_zero cornerEnv_blocks (fun _ _ _ => rfl) hb ⟨⟨h2, h2, trivial⟩, h2, trivial⟩
    ⟨⟨h3, h3, trivial⟩, h3, trivial⟩ ⟨⟨h5, h5, trivial⟩, h5, trivial⟩ e e'

/-! #### C84 -/

/-- No warps are among the operations of these images. -/
theorem paced_jobs : ∀ {js : List Job} {n m : Node}, runAll n js = .ok m → ∀ L, Paced L m →
    (∃ K, Paced K n) ∧ ∀ tf d a, Job.warp tf d a ∉ js
  | [], n, m, h, L, hp => by cases h; exact ⟨⟨L, hp⟩, by simp⟩
  | j :: js, n, m, h, L, hp => by
    simp only [runAll] at h
    cases hj : j.run n with
    | error e => rw [hj] at h; cases h
    | ok n' =>
      rw [hj] at h
      obtain ⟨⟨K, h1⟩, h2⟩ := paced_jobs h L hp
      have key : (∃ K, Paced K n) ∧ ∀ tf d a, j ≠ Job.warp tf d a := by
        cases j with
        | warp tf d a => cases hj; exact h1.elim
        | crop sl =>
          simp only [Job.run] at hj
          obtain ⟨y0, y1, x0, x1, rfl⟩ := mkCrop_form hj
          exact ⟨⟨K, h1.2⟩, by simp⟩
        | padded y0 y1 x0 x1 pad =>
          refine ⟨?_, by simp⟩
          simp only [Job.run, paddedCrop] at hj
          cases e1 : embedSlice y0 y1 n.dsize.2 pad.1.1 pad.1.2 with
          | error e => rw [e1] at hj; cases hj
          | ok a =>
            cases e2 : embedSlice x0 x1 n.dsize.1 pad.2.1 pad.2.2 with
            | error e => rw [e1, e2] at hj; cases hj
            | ok b =>
              cases e3 : mkCrop n (ints a.1.1 a.1.2 b.1.1 b.1.2) none with
              | error e => rw [e1, e2] at hj; simp only [e3] at hj; cases hj
              | ok w =>
                rw [e1, e2] at hj
                simp only [e3] at hj
                obtain ⟨u0, u1, v0, v1, rfl⟩ := mkCrop_form e3
                split at hj
                · cases hj; exact h1.elim
                · cases hj; exact ⟨K, h1.2⟩
        | overview k => cases hj; exact ⟨⟨_, h1.2⟩, by simp⟩
        | dequant q => cases hj; exact ⟨⟨K, h1⟩, by simp⟩
      refine ⟨key.1, fun tf d a hm => ?_⟩
      rcases List.mem_cons.1 hm with e | hm
      · exact key.2 tf d a e.symm
      · exact h2 tf d a hm

/-- What a selection keeps of these images. -/
structure KeptSnug (n t : Node) : Prop where
  dsize : t.dsize = n.dsize
  paced : ∀ L, Paced L n → Paced L t
  snug : ∀ L, Snug L n → Snug L t

theorem keptSnug_carried (js : List Job) : Carried KeptSnug js where
  dsize h := h.dsize
  warp tf d _ a _ h := ⟨rfl, fun _ hf => hf.elim, fun L hs => h.snug L hs⟩
  crop y0 y1 x0 x1 h := ⟨rfl, fun L hp => ⟨hp.1, h.paced L hp.2⟩, fun L hs => ⟨by rw [h.dsize]; exact hs.1, h.snug L hs.2⟩⟩
  overview k d _ h := ⟨rfl, fun _ hp => ⟨hp.1, h.paced _ hp.2⟩, fun _ hs => h.snug _ hs⟩
  dequant q d h := ⟨rfl, fun L hp => h.paced L hp, fun L hs => h.snug L hs⟩

/-- C84 for these images: `finalize()` with its default, which optimizes, gives the same array whether channels are
selected before or after other operations. -/
theorem C84_finalize_snug_partial (hH : H.closeOff 0 0 = true) (hE : Env.Blocks E ov) (hS : Env.Shaped E) (hV : Env.Even E)
    (hO : Env.EvenOverviews E) {n : Node} (hb : Built n) {c : List Nat} (hc : ∀ i ∈ c, i < n.nchan) {js : List Job}
    {m m' t u : Node} (h1 : runAll n js = .ok m) (h2 : takeIdx m c = .ok u) (h3 : takeIdx n c = .ok t)
    (h4 : runAll t js = .ok m') (hbm : Built m) (hn : Paced 0 m) (he : Snug 0 m) (hm : Each E.Matches n) {f f' : Nat}
    {o o' : Node} (ho1 : opt H f u = .ok o) (ho2 : opt H f' m' = .ok o') :
    ∃ a b, finalize H E f u = .ok a ∧ finalize H E f' m' = .ok b ∧ a.Same b := by
  have hcm : ∀ i ∈ c, i < m.nchan := fun i hi => by rw [(runAll_nchan h1).1]; exact hc i hi
  have hk := kept_take hbm hcm h2
  have hk' := kept_runAll (kept_take hb hc h3) h1 h4
  have hmm := runAll_each h1 hm
  have hmu := takeIdx_each m hmm c u h2
  have hmt := takeIdx_each n hm c t h3
  obtain ⟨i, ei, -⟩ := fin_traced hE m 0 hbm.ok.1 hbm.ok.2 hn he hmm
  have hu : Paced 0 u := takeIdx_stable (paced_take 0) m hbm.ok.1 hn c u hcm h2
  have hu' : Snug 0 u := takeIdx_stable (snug_take 0) m hbm.ok.1 he c u hcm h2
  have hm1 : KeptSnug m m' := by
    have h0 : KeptSnug n t := ⟨(kept_take hb hc h3).dsize,
      fun L hf => takeIdx_stable (paced_take L) n hb.ok.1 hf c t hc h3,
      fun L hf => takeIdx_stable (snug_take L) n hb.ok.1 hf c t hc h3⟩
    rcases carried_runAll (keptSnug_carried js) js (fun _ h => h) h0 with ⟨e, g, _⟩ | ⟨w, w', g1, g2, g3⟩
    · rw [h1] at g; cases g
    · rw [h1] at g1
      rw [h4] at g2
      cases g1
      cases g2
      exact g3
  obtain ⟨a, b, ha, hb', s⟩ := C84_arrays hS hV hb hm hc
    (fun tf d a h _ => absurd h ((paced_jobs h1 0 hn).2 tf d a)) (fun _ _ => hO) h1 hbm h2 h3 h4 ei
  obtain ⟨a1, a2, g1, g2, g3⟩ := C36_arrays_snug_partial H hH hE (hk.built hbm) hu hu' hmu f ho1
  obtain ⟨b1, b2, k1, k2, k3⟩ := C36_arrays_snug_partial H hH hE (hk'.built hbm) (hm1.paced 0 hn) (hm1.snug 0 he)
    (runAll_each h4 hmt) f' ho2
  rw [ha] at g1
  rw [hb'] at k1
  cases g1
  cases k1
  exact ⟨a2, b2, by rw [finalize, ho1]; exact g2, by rw [finalize, ho2]; exact k2,
    same_trans (same_symm g3) (same_trans s k3)⟩

theorem copied_shift {k m : Nat} {i j : Img V} (h : Copied k m i j) (tx ty : Int) (d : Int × Int) (v : V) :
    Copied k m (i.shift tx ty d v) (j.shift tx ty d v) := by
  refine ⟨rfl, rfl, h.out, h.inp, fun y x _ _ => ?_⟩
  simp only [Img.shift, h.h, h.w]
  split
  · exact h.px _ _ (by omega) (by omega)
  · rfl

theorem steadyEnv_even : Env.Even steadyEnv :=
  ⟨fun _ _ _ _ _ _ _ h => copied_shift h .., fun _ _ _ _ _ h => copied_shift h ..⟩

theorem steadyEnv_even_overviews : Env.EvenOverviews steadyEnv := by
  intro s t o k m i j h
  refine ⟨?_, ?_, h.out, h.inp, fun y x hy hx => ?_⟩
  · show (ovSize o j.h).toNat = (ovSize o i.h).toNat
    rw [h.h]
  · show (ovSize o j.w).toNat = (ovSize o i.w).toNat
    rw [h.w]
  · simp only [steadyEnv] at hy hx ⊢
    split
    · rename_i ho
      obtain ⟨o, rfl⟩ := Int.eq_ofNat_of_zero_le ho
      exact h.px _ _ (corner_lt hy) (corner_lt hx)
    · rfl

theorem steadyEnv_simulates : Env.Simulates steadyEnv := by
  intro s t k i j h
  refine ⟨?_, ?_, h.n, fun y x c hy hx hc => ?_⟩
  · show (ovSize k i.h).toNat = (ovSize k j.h).toNat
    rw [h.h]
  · show (ovSize k i.w).toNat = (ovSize k j.w).toNat
    rw [h.w]
  · simp only [steadyEnv] at hy hx ⊢
    split
    · rename_i ho
      obtain ⟨o, rfl⟩ := Int.eq_ofNat_of_zero_le ho
      exact h.px _ _ _ (corner_lt hy) (corner_lt hx) hc
    · rfl

/-- Two pictures evaluated, then the first overview of a part of their first overview. -/
example : ∃ m E', evaluate Heur.code steadyEnv 60 sideBySide 7 = .ok (m, E') ∧ ∃ r r',
    runSteps sideBySide [.inr 1, .inl (.crop (some ((some 1, none), (none, some 3))) (some [4, 1])), .inr 1] = .ok r ∧
    runSteps m [.inr 1, .inl (.crop (some ((some 1, none), (none, some 3))) (some [4, 1])), .inr 1] = .ok r' ∧
    r.dsize = (2, 2) ∧ Agree (fin E' r') (fin steadyEnv r) := by
  have hs : Built sideBySide := by
    refine .concat [mkDequant (.leaf pyramid) ⟨0, 1, 0, 255, none⟩, .leaf { pyramid with id := 2 }] _ ?_ rfl
    intro p hp
    simp only [List.mem_cons, List.not_mem_nil, or_false] at hp
    rcases hp with rfl | rfl
    · exact .dequant _ _ pyramid_built
    · exact picture_built (some 3) 2
  obtain ⟨o, e, -⟩ := holds_ok (x := opt Heur.code 60 sideBySide) (f := fun _ => true) (by decide +kernel)
  obtain ⟨i, j, h1, h2, h3⟩ := C36_arrays_snug_partial Heur.code closeOff_zero steadyEnv_blocks hs
    ⟨trivial, trivial, trivial⟩ ⟨trivial, trivial, trivial⟩ cornerView_fair.2.2.2 60 e
  have := fin_shape steadyEnv_shaped _ hs.ok.1 hs.ok.2 cornerView_fair.2.2.2 i h1
  obtain ⟨m, E', g1, g2⟩ := C51_overview_steps Heur.code steadyEnv steadyEnv_reads steadyEnv_simulates 60 sideBySide 7 i j
    (by rw [finalize, e]; exact h2) h1 h3 (by rw [← h3.n, this.n])
    [.inr 1, .inl (.crop (some ((some 1, none), (none, some 3))) (some [4, 1])), .inr 1]
  obtain ⟨r, k1, k2⟩ := holds_ok (x := runSteps sideBySide [.inr 1, .inl (.crop (some ((some 1, none), (none, some 3)))
    (some [4, 1])), .inr 1]) (f := fun r => decide (r.dsize = (2, 2))) (by decide +kernel)
  rw [k1] at g2
  obtain ⟨r', l1, _, _, _, l2⟩ := g2
  exact ⟨m, E', g1, r, r', k1, l1, of_decide_eq_true k2, l2⟩

def cornerJobs : List Job :=
  [.crop ((some 4, some 8), (some 4, some 10)), .overview 1, .crop ((some 0, some 2), (some 2, some 3)), .overview 1]

theorem cornerJobs_run : runAll sideBySide cornerJobs = .ok cornerView := by
  have e4 : ovSize 1 4 = 2 := by decide +kernel
  have e6 : ovSize 1 6 = 3 := by decide +kernel
  have e1 : (Job.crop ((some 4, some 8), (some 4, some 10))).run sideBySide = .ok (.crop sideBySide 4 8 4 10 none) := rfl
  have e2 : (Job.crop ((some 0, some 2), (some 2, some 3))).run (mkOverview (.crop sideBySide 4 8 4 10 none) 1) =
      .ok (.crop (mkOverview (.crop sideBySide 4 8 4 10 none) 1) 0 2 2 3 none) := by
    rw [show (mkOverview (.crop sideBySide 4 8 4 10 none) 1 : Node) = .overview (.crop sideBySide 4 8 4 10 none) 1
      (ovSize 1 6, ovSize 1 4) from rfl, e4, e6]
    rfl
  simp only [runAll, cornerJobs, e1]
  show (match (Job.crop ((some 0, some 2), (some 2, some 3))).run (mkOverview (.crop sideBySide 4 8 4 10 none) 1) with
    | .ok n => runAll n [.overview 1] | .error e => .error e) = _
  rw [e2]
  rfl

theorem sideParts_built : (∀ p ∈ [mkDequant (.leaf pyramid) ⟨0, 1, 0, 255, none⟩, .leaf { pyramid with id := 2 }], Built p) ∧
    Built sideBySide := by
  have h : ∀ p ∈ [mkDequant (.leaf pyramid) ⟨0, 1, 0, 255, none⟩, .leaf { pyramid with id := 2 }], Built p := by
    intro p hp
    simp only [List.mem_cons, List.not_mem_nil, or_false] at hp
    rcases hp with rfl | rfl
    · exact .dequant _ _ pyramid_built
    · exact picture_built (some 3) 2
  exact ⟨h, .concat _ _ h rfl⟩

/-- Selecting a channel of each picture, before and after. -/
example : ∃ u t m' : Node, runAll sideBySide cornerJobs = .ok cornerView ∧ takeIdx cornerView [4, 1] = .ok u ∧
    takeIdx sideBySide [4, 1] = .ok t ∧ runAll t cornerJobs = .ok m' ∧ ∃ a b, finalize Heur.code steadyEnv 60 u = .ok a ∧
      finalize Heur.code steadyEnv 60 m' = .ok b ∧ a.Same b := by
  obtain ⟨g1, g2, g3, -⟩ := cornerView_ok
  have e0 := cornerJobs_run
  obtain ⟨u, h1, h2⟩ := holds_ok (x := takeIdx cornerView [4, 1]) (f := fun u => holds (takeIdx sideBySide [4, 1]) fun t =>
      holds (runAll t cornerJobs) fun m' =>
      holds (opt Heur.code 60 u) fun _ => holds (opt Heur.code 60 m') fun _ => true) (by decide +kernel)
  obtain ⟨t, h3, h4⟩ := holds_ok h2
  obtain ⟨m', h5, h6⟩ := holds_ok h4
  obtain ⟨o, h7, h8⟩ := holds_ok h6
  obtain ⟨o', h9, -⟩ := holds_ok h8
  exact ⟨u, t, m', e0, h1, h3, h5, C84_finalize_snug_partial closeOff_zero steadyEnv_blocks steadyEnv_shaped steadyEnv_even
    steadyEnv_even_overviews sideParts_built.2 (by decide) e0 h1 h3 h5 g1 g2 g3 cornerView_fair.2.2.2 h7 h9⟩

/-! #### C89 -/

/-- C89 for these images: `finalize()` with its default, which optimizes, gives the same array whether operations are done
to a concat or to its parts. -/
theorem C89_finalize_snug_partial (hH : H.closeOff 0 0 = true) (hE : Env.Blocks E ov) (hS : Env.Shaped E) (hV : Env.Even E)
    (hO : Env.EvenOverviews E) {ps : List Node} (hb : ∀ p ∈ ps, Built p) (hm : ∀ p ∈ ps, Each E.Matches p) {n : Node}
    (hn : mkConcat ps = .ok n) {js : List Job} {m : Node} (h1 : runAll n js = .ok m) (hbm : Built m) (hp : Paced 0 m)
    (he : Snug 0 m) {qs : List Node} (hq : List.Forall₂ (fun p q => runAll p js = .ok q) ps qs) {c : Node}
    (hc : mkConcat qs = .ok c) {f f' : Nat} {o o' : Node} (ho1 : opt H f m = .ok o) (ho2 : opt H f' c = .ok o') :
    ∃ a b, finalize H E f m = .ok a ∧ finalize H E f' c = .ok b ∧ a.Same b := by
  obtain ⟨d, rfl, hne, hd⟩ := mkConcat_ok hn
  have key : ∀ q ∈ qs, KeptSnug m q ∧ Built q ∧ Each E.Matches q := by
    intro q hq'
    obtain ⟨o, h, rfl⟩ := List.getElem_of_mem hq'
    have hlen := hq.length_eq
    have hrun : runAll (ps[o]'(by omega)) js = .ok qs[o] := by
      have := hq.get (i := o) (by omega) h
      simpa only [List.get_eq_getElem] using this
    have hmem : ps[o]'(by omega) ∈ ps := List.getElem_mem _
    refine ⟨?_, ?_, runAll_each hrun (hm _ hmem)⟩
    · have h0 : KeptSnug (.concat ps d) (ps[o]'(by omega)) := ⟨hd _ hmem,
        fun L h => (pacedL_iff ps).1 h _ hmem, fun L h => (snugL_iff ps).1 h _ hmem⟩
      rcases carried_runAll (keptSnug_carried js) js (fun _ h => h) h0 with ⟨e, g, _⟩ | ⟨x, y, g1, g2, g3⟩
      · rw [h1] at g; cases g
      · rw [h1] at g1
        rw [hrun] at g2
        cases g1
        cases g2
        exact g3
    · rcases carried_runAll (held_carried ((ps.take o).map nchan).sum js) js (fun _ h => h) (held_part hd (by omega)) with
        ⟨e, g, _⟩ | ⟨x, y, g1, g2, g3⟩
      · rw [h1] at g; cases g
      · rw [h1] at g1
        rw [hrun] at g2
        cases g1
        cases g2
        have := g3.ok hbm.ok
        exact built_of _ this.1 this.2
  have hbc : Built c := .concat qs c (fun q h => (key q h).2.1) hc
  obtain ⟨d', rfl, -, -⟩ := mkConcat_ok hc
  have hmm : Each E.Matches m := runAll_each h1 ((EachL_iff _ _).2 hm)
  obtain ⟨i, a, ei, ea, s1⟩ := C36_arrays_snug_partial H hH hE hbm hp he hmm f ho1
  obtain ⟨j, b, ej, eb, s2⟩ := C36_arrays_snug_partial H hH hE hbc ((pacedL_iff qs).2 fun q h => (key q h).1.paced 0 hp)
    ((snugL_iff qs).2 fun q h => (key q h).1.snug 0 he) ((EachL_iff _ _).2 fun q h => (key q h).2.2) f' ho2
  obtain ⟨j', ej', s3⟩ := (C89_arrays hS hV hb hm hn (fun tf d a h _ => absurd h ((paced_jobs h1 0 hp).2 tf d a))
    (fun _ _ => hO) h1 hbm hq hc).1 i ei
  rw [ej] at ej'
  cases ej'
  exact ⟨a, b, by rw [finalize, ho1]; exact ea, by rw [finalize, ho2]; exact eb,
    same_trans (same_symm s1) (same_trans s3 s2)⟩

/-- Cropping and taking overviews of two pictures side by side, or of each. -/
example : ∃ q q' c : Node, runAll sideBySide cornerJobs = .ok cornerView ∧
    runAll (mkDequant (.leaf pyramid) ⟨0, 1, 0, 255, none⟩) cornerJobs = .ok q ∧
    runAll (.leaf { pyramid with id := 2 }) cornerJobs = .ok q' ∧ mkConcat [q, q'] = .ok c ∧
    ∃ a b, finalize Heur.code steadyEnv 60 cornerView = .ok a ∧ finalize Heur.code steadyEnv 60 c = .ok b ∧ a.Same b := by
  obtain ⟨g1, g2, g3, -⟩ := cornerView_ok
  obtain ⟨q, h1, h2⟩ := holds_ok (x := runAll (mkDequant (.leaf pyramid) ⟨0, 1, 0, 255, none⟩) cornerJobs)
    (f := fun q => holds (runAll (.leaf { pyramid with id := 2 }) cornerJobs) fun q' => holds (mkConcat [q, q']) fun c =>
      holds (opt Heur.code 60 cornerView) fun _ => holds (opt Heur.code 60 c) fun _ => true) (by decide +kernel)
  obtain ⟨q', h3, h4⟩ := holds_ok h2
  obtain ⟨c, h5, h6⟩ := holds_ok h4
  obtain ⟨o, h7, h8⟩ := holds_ok h6
  obtain ⟨o', h9, -⟩ := holds_ok h8
  refine ⟨q, q', c, cornerJobs_run, h1, h3, h5, C89_finalize_snug_partial closeOff_zero steadyEnv_blocks steadyEnv_shaped
    steadyEnv_even steadyEnv_even_overviews sideParts_built.1 ?_ rfl cornerJobs_run g1 g2 g3
    (.cons h1 (.cons h3 .nil)) h5 h7 h9⟩
  intro p hp
  simp only [List.mem_cons, List.not_mem_nil, or_false] at hp
  rcases hp with rfl | rfl <;> exact fun _ => ⟨rfl, rfl, rfl⟩

/-! #### C87 -/

mutual
/-- Without warps the types of the arrays do not matter. -/
theorem finT_paced (N : Np) {E : Bool → Env V} (hE : SameFiles E) (hv : ∀ b, (E b).overview = (E true).overview) :
    ∀ (L : Nat) (n : Node), Paced L n → finT N E n = fin (E true) n
  | _, .leaf l, _ => by rw [finT]; exact hE.leaf _ _ l
  | L, .concat ps _, h => by
    rw [finT, fin, finTL_paced N hE hv L ps h]
    rfl
  | _, .warp _ _ _ _, h => h.elim
  | L, .crop s _ _ _ _ _, h => by
    rw [finT, fin, finT_paced N hE hv L s h.2]
    rfl
  | L, .overview s k _, h => by
    rw [finT, fin, finT_paced N hE hv (L + k.toNat) s h.2, hv]
    rfl
  | L, .dequant s _ _, h => by
    rw [finT, fin, finT_paced N hE hv L s h]
    rfl
theorem finTL_paced (N : Np) {E : Bool → Env V} (hE : SameFiles E) (hv : ∀ b, (E b).overview = (E true).overview) :
    ∀ (L : Nat) (ps : List Node), PacedL L ps → finTL N E ps = finL (E true) ps
  | _, [], _ => rfl
  | L, p :: ps, h => by
    rw [finTL, finL, finT_paced N hE hv L p h.1, finTL_paced N hE hv L ps h.2]
    rfl
end

/-- C87 and C36 for these images: files of any types next to each other show the same pixels with and without optimizing,
because no border is filled. -/
theorem C87_snug_partial (N : Np) {E : Bool → Env V} (hH : H.closeOff 0 0 = true) (hE : SameFiles E)
    (hv : ∀ b, (E b).overview = (E true).overview) (hO : Env.Blocks (E true) ov) {n : Node} (hb : Built n) (hn : Paced 0 n)
    (he : Snug 0 n) (hm : Each (E true).Matches n) (fuel : Nat) {m : Node} (h : opt H fuel n = .ok m) :
    ∃ i j, finT N E n = .ok i ∧ finalizeT H N E fuel n = .ok j ∧ i.Same j := by
  have g := opt_good (deep := false) (pacedRules H hH) (by simp) fuel n m ⟨hb.ok.1, hb.ok.2, hn⟩ h
  obtain ⟨i, j, h1, h2, h3⟩ := C36_arrays_snug_partial H hH hO hb hn he hm fuel h
  exact ⟨i, j, by rw [finT_paced N hE hv 0 n hn, h1], by
    rw [finalizeT, h]
    show finT N E m = _
    rw [finT_paced N hE hv 0 m g.inv.steps, h2], h3⟩

/-- One file of integers next to a dequantized one. -/
example (E : Bool → Env (Nat × Nat × Nat)) (h : E = fun b => if b then steadyEnv else
      { steadyEnv with warp := fun _ d _ i => i.shift 0 0 d (0, 0, 0), border := fun _ => (0, 0, 0) }) :
    elem ⟨fun k => if k = 2 then .u8 else .f32, fun _ => .f32, joinOf⟩ (.leaf { pyramid with id := 2 }) = .u8 ∧
    ∃ i j, finT ⟨fun k => if k = 2 then .u8 else .f32, fun _ => .f32, joinOf⟩ E cornerView = .ok i ∧
      finalizeT Heur.code ⟨fun k => if k = 2 then .u8 else .f32, fun _ => .f32, joinOf⟩ E 60 cornerView = .ok j ∧
      i.Same j := by
  subst h
  obtain ⟨g1, g2, g3, -⟩ := cornerView_ok
  obtain ⟨m, h5, -⟩ := holds_ok (x := opt Heur.code 60 cornerView) (f := fun _ => true) (by decide +kernel)
  exact ⟨rfl, C87_snug_partial _ closeOff_zero
    ⟨fun b => by cases b <;> rfl, fun b => by cases b <;> rfl, fun b => by cases b <;> rfl⟩
    (fun b => by cases b <;> rfl) steadyEnv_blocks g1 g2 g3 cornerView_fair.2.2.2 60 h5⟩

/-! #### C86 -/

/-- C86, files, with overviews: if there are no warps and crops start on pixels of the overviews taken after them, then
an optimized image reads exactly the files that its channels come from. -/
theorem C86_files_paced_partial (hH : H.closeOff 0 0 = true) {n : Node} (hb : Built n) (hn : Paced 0 n) (ho : Coarse n)
    (hf : Fair n) (hc : Each HasChannels n) (fuel : Nat) {m : Node} (h : opt H fuel n = .ok m) (f : Nat) :
    f ∈ files m ↔ Draws n f := by
  have e := (C69_origin H hb fuel h).1
  have g := opt_good (deep := true) (fairPacedRules H hH) (fun _ _ _ h => h.dsize) fuel n m
    ⟨⟨hb.ok.1, hb.ok.2, hn⟩, hf, ho⟩ h
  have g1 := opt_good (deep := false) (keepRules H (nameRules H) (stable_each HasChannels hasChannels_nan))
    (by simp) fuel n m ⟨hb.ok.1, hc⟩ h
  unfold Draws
  rw [← e]
  constructor
  · exact nf_files m g.nf g.inv.wf g.inv.fair g1.inv.2 f
  · rintro ⟨s, hs, i, hi⟩
    exact src_files m g.inv.wf s hs f i hi

/-- One channel of the second picture of `cornerView`: the first one is not read any more. -/
example : ∃ m, opt Heur.code 60 (.crop cornerView 0 1 0 1 (some [4])) = .ok m ∧ files m = [2] ∧
    files (.crop cornerView 0 1 0 1 (some [4])) = [pyramid.id, 2] ∧ pyramid.id ≠ 2 ∧
    ∀ f, Draws (.crop cornerView 0 1 0 1 (some [4])) f ↔ f = 2 := by
  obtain ⟨h1, h2, -⟩ := cornerView_ok
  obtain ⟨f1, f2, -⟩ := cornerView_fair
  have ed : cornerView.dsize = (1, 1) := by decide +kernel
  have hb : Built (.crop cornerView 0 1 0 1 (some [4])) :=
    built_of _ ⟨h1.ok.1, by decide, by decide, show ∀ i ∈ [4], i < 6 by decide⟩ ⟨h1.ok.2, by rw [ed]; decide⟩
  obtain ⟨m, e, ef⟩ := holds_ok (x := opt Heur.code 60 (.crop cornerView 0 1 0 1 (some [4])))
    (f := fun m => decide (files m = [2])) (by decide +kernel)
  have ef := of_decide_eq_true ef
  refine ⟨m, e, ef, by decide, by decide, fun f => ?_⟩
  rw [← C86_files_paced_partial closeOff_zero hb ⟨⟨by simp, by simp⟩, h2⟩ f1 ⟨f2, by simp⟩
    ⟨fun _ => by decide, fun _ => by decide, trivial⟩ 60 e f, ef, List.mem_singleton]

end Props
end Verif
