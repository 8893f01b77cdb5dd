/-
What follows from C36 on images in which every pixel is interpolated at most once.
-/
import Verif.Props.Once
import Verif.Props.Whole

namespace Verif.Props

open Tree Helpers Node

variable {V : Type} {H : Heur} {E : Env V} {b : Bool} {g : Algo → ℚ × ℚ → (Int → Int → Option V) → V}

/-! #### bilinear interpolation -/

theorem onGrid_congr {d : Nat × Nat} {f f' : Nat → Nat → V} (h : ∀ y x, y < d.2 → x < d.1 → f y x = f' y x) :
    onGrid ((d.1 : Int), (d.2 : Int)) f = onGrid ((d.1 : Int), (d.2 : Int)) f' := by
  funext y x
  simp only [onGrid]
  split
  · rename_i hc
    rw [h _ _ (by omega) (by omega)]
  · rfl

theorem bilEnv_reads : Env.Reads bilEnv where
  warp := by
    intro tf d a i j h
    refine ⟨rfl, rfl, h.n, fun y x k _ _ hk => ?_⟩
    show bil _ _ _ = bil _ _ _
    rw [onGrid_congr (d := (i.w, i.h)) fun y x hy hx => h.px y x k hy hx hk, h.h, h.w]
  resize := fun _ _ _ h => same_carry h ..

theorem bilEnv_even : Env.Even bilEnv where
  warp := by
    intro tf d a k m i j h
    refine ⟨rfl, rfl, h.out, h.inp, fun y x _ _ => ?_⟩
    show bil _ _ _ = bil _ _ _
    rw [h.h, h.w]
    exact congrArg _ (onGrid_congr (d := (i.w, i.h)) fun y x hy hx => h.px y x hy hx)
  resize := fun _ _ _ _ _ h => copied_carry h ..

/-! #### C83 -/

/-- C83 for images in which every pixel is interpolated at most once: optimizing parts in advance changes no pixel. -/
theorem C83_arrays_once_partial (hE : Env.Shaped E) (hg : Env.Linear E g) (hV : b = true → Env.Void E g) {n m : Node}
    (hH : Sharp H n)
    (h : Early H n m) (hb : Tree.Built n) (ho : NoOv n) (hn : Once b n)
    (hm : Each (Present b E) n) : ∃ i j, fin E n = .ok i ∧ fin E m = .ok j ∧ i.Same j := by
  obtain ⟨K, hK, hK'⟩ := once_tol hH hn
  have hS : Interpolated E b K n := ⟨⟨⟨hb.ok.1, hb.ok.2, ho⟩, hm⟩, hK'⟩
  obtain ⟨r1, r2⟩ := early_good (onceRules H hK hE hg hV) h hS
  obtain ⟨i, ei, hi⟩ := hS.displayed hE
  obtain ⟨j, ej, hj⟩ := r1.displayed hE
  refine ⟨i, j, ei, ej, ?_⟩
  have e1 := hi.h
  have e2 := hi.w
  have e3 := hj.h
  have e4 := hj.w
  rw [r2.size.1] at e3 e4
  refine same_of_planes (nan := E.nan) (by omega) (by omega) ?_
  rw [← seen_planes _ _ ei, ← seen_planes _ _ ej, r2.seen]

/-- The stack in `onceTree` is optimized before it is warped. -/
example : ∃ m i j, Early Heur.code onceTree m ∧ fin bilEnv onceTree = .ok i ∧ fin bilEnv m = .ok j ∧ i.Same j ∧
    fileWindows m = [(1, (1, 4), (1, 5), some [1]), (2, (0, 3), (0, 4), none)] := by
  obtain ⟨h1, h2, h3, h4, h5⟩ := onceTree_ok
  obtain ⟨m, e, ew⟩ := holds_ok (x := opt Heur.code 40 (.concat [.dequant (.crop (.leaf rgbLeaf) 1 4 1 5 (some [1]))
    ⟨0, 1, 0, 10, none⟩ (4, 3), nanLeaf 3 (4, 3) (some [p! "x"]), .crop (.leaf { rgbLeaf with id := 2 }) 0 3 0 4 none]
    (4, 3)))
    (f := fun m => decide (fileWindows m = [(1, (1, 4), (1, 5), some [1]), (2, (0, 3), (0, 4), none)]))
    (by decide +kernel)
  have he : Early Heur.code onceTree (.crop (.warp m ⟨2, 0, 3 / 10, 0, 2, 0⟩ (8, 6) .default) 4 6 5 8 (some [4, 0,
      1])) :=
    .crop _ _ _ _ _ (.warp _ _ _ (.opt 40 e (.refl _)) (.refl _)) (.refl _)
  obtain ⟨i, j, e1, e2, e3⟩ := C83_arrays_once_partial bilEnv_shaped bil_linear (fun _ => bil_void) h4 he h1 h2 h3 h5
  refine ⟨_, i, j, he, e1, e2, e3, ?_⟩
  simpa only [fileWindows] using of_decide_eq_true ew

/-! #### C51 -/

/-- C51 for these images: evaluating in the middle of a chain of operations changes nothing. -/
theorem C51_middle_once_partial (hE : Env.Shaped E) (hR : Env.Reads E) (hg : Env.Linear E g) (hV : b = true →
    Env.Void E g) {n : Node}
    (hH : Sharp H n) (hb : Tree.Built n) (ho : NoOv n) (hn : Once b n)
    (hm : Each (Present b E) n) (fuel : Nat) {o : Node} (h : opt H fuel n = .ok o) (fresh : Nat)
    (ss : List Act) : ∃ m E', evaluate H E fuel n fresh = .ok (m, E') ∧ Follows E n E' m ss := by
  obtain ⟨i, j, h1, h2, h3⟩ := C36_arrays_once_partial H hE hg hV hH hb ho hn hm fuel h
  have := fin_shape hE n hb.ok.1 hb.ok.2 (each_imp (fun _ h => h.2) _ hm) i h1
  exact C51_operations H E hR fuel n fresh i j h2 h1 h3 (by rw [← h3.n, this.n]) ss

/-- `onceTree` evaluated, then turned. -/
example : ∃ m E', evaluate Heur.code bilEnv 40 onceTree 7 = .ok (m, E') ∧
    Follows bilEnv onceTree E' m [.warp ⟨3 / 5, -4 / 5, 2, 4 / 5, 3 / 5, 0⟩ none .default] := by
  obtain ⟨h1, h2, h3, h4, h5⟩ := onceTree_ok
  obtain ⟨m, e, -⟩ := holds_ok (x := opt Heur.code 40 onceTree) (f := fun _ => true) (by decide +kernel)
  exact C51_middle_once_partial bilEnv_shaped bilEnv_reads bil_linear (fun _ => bil_void) h4 h1 h2 h3 h5 40 e 7 _

/-! #### C84 -/

/-- The operations of an image without overviews and nearest neighbour interpolation. -/
theorem smooth_jobs : ∀ {js : List Job} {n m : Node}, runAll n js = .ok m → Smooth m ∧ NoOv m →
    (Smooth n ∧ NoOv n) ∧ (∀ tf d a, Job.warp tf d a ∈ js → a.interp ≠ .nearest) ∧ ∀ k, Job.overview k ∉ js
  | [], n, m, h, hp => by cases h; exact ⟨hp, by simp, by simp⟩
  | j :: js, n, m, h, hp => by
    simp only [runAll] at h
    cases hj : j.run n with
    | error e => rw [hj] at h; cases h
    | ok n' =>
      rw [hj] at h
      obtain ⟨h1, h2, h3⟩ := smooth_jobs h hp
      have key : (Smooth n ∧ NoOv n) ∧ (∀ tf d a, j = Job.warp tf d a → a.interp ≠ .nearest) ∧
          ∀ k, j ≠ Job.overview k := by
        cases j with
        | warp tf d a => cases hj; exact ⟨⟨h1.1.2, h1.2⟩, by rintro _ _ _ ⟨⟩; exact h1.1.1, by simp⟩
        | crop sl =>
          simp only [Job.run] at hj
          obtain ⟨y0, y1, x0, x1, rfl⟩ := mkCrop_form hj
          exact ⟨h1, by simp, by simp⟩
        | padded y0 y1 x0 x1 pad =>
          refine ⟨?_, by simp, by simp⟩
          simp only [Job.run, paddedCrop] at hj
          cases e1 : embedSlice y0 y1 n.dsize.2 pad.1.1 pad.1.2 with
          | error e => rw [e1] at hj; cases hj
          | ok a =>
            cases e2 : embedSlice x0 x1 n.dsize.1 pad.2.1 pad.2.2 with
            | error e => rw [e1, e2] at hj; cases hj
            | ok b =>
              cases e3 : mkCrop n (ints a.1.1 a.1.2 b.1.1 b.1.2) none with
              | error e => rw [e1, e2] at hj; simp only [e3] at hj; cases hj
              | ok w =>
                rw [e1, e2] at hj
                simp only [e3] at hj
                obtain ⟨u0, u1, v0, v1, rfl⟩ := mkCrop_form e3
                split at hj
                · cases hj; exact ⟨h1.1.2, h1.2⟩
                · cases hj; exact h1
        | overview k => cases hj; exact h1.2.elim
        | dequant q => cases hj; exact ⟨h1, by simp, by simp⟩
      refine ⟨key.1, fun tf d a hm => ?_, fun k hm => ?_⟩
      · rcases List.mem_cons.1 hm with e | hm
        · exact key.2.1 tf d a e.symm
        · exact h2 tf d a hm
      · rcases List.mem_cons.1 hm with e | hm
        · exact key.2.2 k e.symm
        · exact h3 k hm

/-- What a selection keeps of these images. -/
structure KeptOnce (n t : Node) : Prop where
  dsize : t.dsize = n.dsize
  flat : Flat n → Flat t
  once : ∀ b, Once b n → Once b t

theorem keptOnce_carried (js : List Job) : Carried KeptOnce js where
  dsize h := h.dsize
  warp tf d _ a _ h := ⟨rfl, fun hf => hf.elim, fun _ ho => ⟨h.flat ho.1, ho.2⟩⟩
  crop y0 y1 x0 x1 h := ⟨rfl, fun hf => h.flat hf, fun b ho => h.once b ho⟩
  overview k d _ h := ⟨rfl, fun hf => hf.elim, fun _ ho => ho.elim⟩
  dequant q d h := ⟨rfl, fun hf => h.flat hf, fun _ ho => h.flat ho⟩

/-- C84 for these images: `finalize()` with its default, which optimizes, gives the same array whether channels are
selected before or after other operations. -/
theorem C84_finalize_once_partial (hS : Env.Shaped E) (hE : Env.Even E) (hg : Env.Linear E g) (hV : b = true →
    Env.Void E g) {n : Node}
    (hb : Tree.Built n) {c : List Nat} (hc : ∀ i ∈ c, i < n.nchan) {js : List Job} {m m' t u : Node}
    (h1 : runAll n js = .ok m) (h2 : takeIdx m c = .ok u) (h3 : takeIdx n c = .ok t) (h4 : runAll t js = .ok m')
    (hbm : Tree.Built m) (ho : NoOv m) (hn : Once b m) (hm : Each (Present b E) n)
    (hH : Sharp H m) {f f' : Nat} {o o' : Node} (ho1 : opt H f u = .ok o) (ho2 : opt H f' m' = .ok o') :
    ∃ a b, finalize H E f u = .ok a ∧ finalize H E f' m' = .ok b ∧ a.Same b := by
  have hcm : ∀ i ∈ c, i < m.nchan := fun i hi => by rw [(runAll_nchan h1).1]; exact hc i hi
  have hk := kept_take hbm hcm h2
  have hk' := kept_runAll (kept_take hb hc h3) h1 h4
  have hmm := runAll_each h1 hm
  have hmu := takeIdx_each m hmm c u h2
  have hmt := takeIdx_each n hm c t h3
  obtain ⟨i, ei, _⟩ := displayed_of hS hbm.ok.1 hbm.ok.2 hmm hn.smooth
  have hu : Once b u := takeIdx_stable once_take m hbm.ok.1 hn c u hcm h2
  have hm1 : Once b m' := by
    have h0 : KeptOnce n t := ⟨(kept_take hb hc h3).dsize,
      fun hf => takeIdx_stable stable_flat.take n hb.ok.1 hf c t hc h3,
      fun _ hf => takeIdx_stable once_take n hb.ok.1 hf c t hc h3⟩
    rcases carried_runAll (keptOnce_carried js) js (fun _ h => h) h0 with ⟨e, g, _⟩ | ⟨w, w', g1, g2, g3⟩
    · rw [h1] at g; cases g
    · rw [h1] at g1
      rw [h4] at g2
      cases g1
      cases g2
      exact g3.once b hn
  have hj := smooth_jobs h1 ⟨hn.smooth, ho⟩
  obtain ⟨a, b, ha, hb', s⟩ := C84_arrays hS hE hb (each_imp (fun _ h => h.2) _ hm) hc
    (fun tf d a h h' => absurd h' (hj.2.1 tf d a h)) (fun k h => absurd h (hj.2.2 k)) h1 hbm h2 h3 h4 ei
  obtain ⟨a1, a2, g1, g2, g3⟩ := C36_arrays_once_partial H hS hg hV (hk.sharp hH) (hk.built hbm) (hk.plain ho) hu hmu
      f ho1
  obtain ⟨b1, b2, k1, k2, k3⟩ := C36_arrays_once_partial H hS hg hV (hk'.sharp hH) (hk'.built hbm) (hk'.plain ho) hm1
    (runAll_each h4 hmt) f' ho2
  rw [ha] at g1
  rw [hb'] at k1
  cases g1
  cases k1
  exact ⟨a2, b2, g2, k2, same_trans (same_symm g3) (same_trans s k3)⟩

/-- The stack in `onceTree`, and what is done to it. -/
def onceStack : Node :=
  .concat [.dequant (.crop (.leaf rgbLeaf) 1 4 1 5 (some [1])) ⟨0, 1, 0, 10, none⟩ (4, 3),
    nanLeaf 3 (4, 3) (some [p! "x"]), .crop (.leaf { rgbLeaf with id := 2 }) 0 3 0 4 none] (4, 3)

def onceJobs : List Job :=
  [.warp ⟨2, 0, 3 / 10, 0, 2, 0⟩ (some (8, 6)) .default, .crop ((some 4, some 6), (some 5, some 8))]

/-- Selecting three channels, in another order, before and after. -/
example : ∃ m u t m' : Node, runAll onceStack onceJobs = .ok m ∧ takeIdx m [4, 0, 1] = .ok u ∧
    takeIdx onceStack [4, 0, 1] = .ok t ∧ runAll t onceJobs = .ok m' ∧ ∃ a b, finalize Heur.code bilEnv 40 u = .ok a ∧
      finalize Heur.code bilEnv 40 m' = .ok b ∧ a.Same b := by
  have e0 : runAll onceStack onceJobs =
      .ok (.crop (.warp onceStack ⟨2, 0, 3 / 10, 0, 2, 0⟩ (8, 6) .default) 4 6 5 8 none) := rfl
  obtain ⟨u, h1, h2⟩ := holds_ok (x := takeIdx (.crop (.warp onceStack ⟨2, 0, 3 / 10, 0, 2, 0⟩ (8, 6) .default) 4 6 5 8
    none) [4, 0, 1]) (f := fun u => holds (takeIdx onceStack [4, 0, 1]) fun t => holds (runAll t onceJobs) fun m' =>
      holds (opt Heur.code 40 u) fun _ => holds (opt Heur.code 40 m') fun _ => true) (by decide +kernel)
  obtain ⟨t, h3, h4⟩ := holds_ok h2
  obtain ⟨m', h5, h6⟩ := holds_ok h4
  obtain ⟨o, h7, h8⟩ := holds_ok h6
  obtain ⟨o', h9, -⟩ := holds_ok h8
  obtain ⟨g1, g2, g3, g4, g5⟩ := onceTree_ok
  refine ⟨_, u, t, m', e0, h1, h3, h5, C84_finalize_once_partial bilEnv_shaped bilEnv_even bil_linear (fun _ =>
      bil_void) ?_ ?_ e0 h1 h3 h5 ?_
    g2 g3 g5 (sharp_code g2 ⟨rfl, trivial, trivial, trivial, trivial⟩) h7 h9⟩
  · exact (built_iff _).2 ⟨g1.ok.1.1.1, g1.ok.2.1.2⟩
  · show ∀ i ∈ [4, 0, 1], i < 5
    decide
  · exact (built_iff _).2 ⟨⟨g1.ok.1.1, g1.ok.1.2.1, g1.ok.1.2.2.1, trivial⟩, g1.ok.2⟩

/-! #### C61 -/

/-- C61 for these images: `image[key].finalize()` is `image.finalize()[key]`. -/
theorem C61_finalize_once_partial (hS : Env.Shaped E) (hg : Env.Linear E g) (hV : b = true → Env.Void E g) {n : Node}
    (hb : Tree.Built n) (ho : NoOv n)
    (hz : NoSlack n) (hf : Fair n) (hd : deqs n ≤ 1) (hn : Once b n)
    (hm : Each (Present b E) n) {k : Index} (hk : Index.Ok n k) :
    ∃ t i F, getitem n k = .ok t ∧ ∀ f, F ≤ f → finalize Heur.code E f n = .ok i ∧
      Agree (finalize Heur.code E f t) (npItem i k) := by
  obtain ⟨sl, c, ek, hc, hce, enp⟩ : ∃ sl c, getitem n k = crop n (some sl) c true true (.int 0) false ∧
      IdxOk n.nchan c ∧ c ≠ some [] ∧ ∀ i : Img V, npItem i k = (i.slice sl.1 sl.2).select c := by
    cases k with
    | two sl => exact ⟨sl, none, rfl, trivial, by simp, fun _ => rfl⟩
    | three sl c => exact ⟨sl, some c, rfl, hk.2, by simp [hk.1], fun _ => rfl⟩
    | single => exact hk.elim
    | more => exact hk.elim
  have em : crop n (some sl) c true true (.int 0) false = mkCrop n (some sl) c := by simp [Tree.crop, Pad.truthy]
  obtain ⟨t, et⟩ : ∃ t, mkCrop n (some sl) c = .ok t := mkCrop_total' hb.ok.1 hc _
  obtain ⟨y0, y1, x0, x1, rfl⟩ := mkCrop_form et
  have hbt : Tree.Built (.crop n y0 y1 x0 x1 c) := .crop n _ (some sl) c hb hc et
  obtain ⟨m, F, h⟩ := C55_no_exception_partial hb ho hf hd
  obtain ⟨m', F', h'⟩ := C55_no_exception_partial hbt ho ⟨hf, hce⟩ hd
  obtain ⟨i0, i, e0, e1, s1⟩ := C36_arrays_once_partial Heur.code hS hg hV (sharp_code ho hz) hb ho hn hm F
    (h F (le_refl _))
  refine ⟨.crop n y0 y1 x0 x1 c, i, max F F', by rw [ek, em, et], fun f hf => ?_⟩
  have hst : Sharp Heur.code (.crop n y0 y1 x0 x1 c) := sharp_code (n := .crop n y0 y1 x0 x1 c) ho hz
  have hnt : Once b (.crop n y0 y1 x0 x1 c) := hn
  obtain ⟨j0, j, e2, e3, s2⟩ := C36_arrays_once_partial Heur.code hS hg hV hst hbt ho hnt hm F' (h' F' (le_refl _))
  have ha := C45_announced_shape hS hb (each_imp (fun _ h => h.2) _ hm) e0
  have hag := C24_crop_is_numpy_slice E n i0 e0 ha sl c
  rw [em, et] at hag
  simp only [pixels, e2] at hag
  refine ⟨?_, ?_⟩
  · rw [← e1, finalize, finalize, h f (le_trans (le_max_left _ _) hf), h F (le_refl _)]
  · have e4 : finalize Heur.code E f (.crop n y0 y1 x0 x1 c) = .ok j := by
      rw [← e3, finalize, finalize, h' f (le_trans (le_max_right _ _) hf), h' F' (le_refl _)]
    rw [e4, enp]
    have hss := same_select (same_slice s1 sl.1 sl.2) c
    cases e5 : (i0.slice sl.1 sl.2).select c with
    | error e => rw [e5] at hag; exact hag.elim
    | ok a =>
      rw [e5] at hag hss
      cases e6 : (i.slice sl.1 sl.2).select c with
      | error e => rw [e6] at hss; exact hss.elim
      | ok b =>
        rw [e6] at hss
        exact same_trans (same_symm s2) (same_trans hag hss)

/-- The last two columns of the second row of `onceTree`, the channels swapped. -/
example : ∃ t i F, getitem onceTree (.three ((some 1, none), (some (-2), none)) [1, 0]) = .ok t ∧ ∀ f, F ≤ f →
    finalize Heur.code bilEnv f onceTree = .ok i ∧ Agree (finalize Heur.code bilEnv f t)
      (npItem i (.three ((some 1, none), (some (-2), none)) [1, 0])) := by
  obtain ⟨h1, h2, h3, h4, h5⟩ := onceTree_ok
  exact C61_finalize_once_partial bilEnv_shaped bil_linear (fun _ => bil_void) h1 h2 ⟨rfl, trivial, trivial, trivial,
      trivial⟩
    ⟨⟨⟨.inr rfl, by simp⟩, .inl rfl, ⟨.inr rfl, by simp⟩, trivial⟩, by simp⟩ (by decide) h3 h5 ⟨by simp, by decide⟩

/-! #### C82 -/

mutual
theorem ungroup_once : ∀ n : Node, Once b n → Once b (ungroup n)
  | .leaf _, _ => trivial
  | .concat ps _, h => ungroupL_once ps h
  | .warp s _ _ _, h => ⟨(ungroup_flat s).2 h.1, h.2⟩
  | .crop s _ _ _ _ _, h => ungroup_once s h
  | .overview _ _ _, h => h.elim
  | .dequant s _ _, h => (ungroup_flat s).2 h
theorem ungroupL_once : ∀ ps : List Node, OnceIfL (fun a => b = true → a.border = none) ps →
    OnceIfL (fun a => b = true → a.border = none) (ungroupL ps)
  | [], _ => trivial
  | p :: ps, h => by
    rw [ungroupL]
    have h2 := ungroupL_once ps h.2
    have := ungroup_once p h.1
    rw [OnceIfL_iff] at h2 ⊢
    intro q hq
    rcases List.mem_append.1 hq with hq | hq
    · cases e : ungroup p with
      | concat qs d =>
        rw [e] at this hq
        exact (OnceIfL_iff qs).1 this q hq
      | leaf l => rw [e] at this hq; rw [List.mem_singleton.1 hq]; exact this
      | warp s tf d a => rw [e] at this hq; rw [List.mem_singleton.1 hq]; exact this
      | crop s y0 y1 x0 x1 c => rw [e] at this hq; rw [List.mem_singleton.1 hq]; exact this
      | overview s k d => rw [e] at this hq; rw [List.mem_singleton.1 hq]; exact this
      | dequant s q' d => rw [e] at this hq; rw [List.mem_singleton.1 hq]; exact this
    · exact h2 q hq
end

/-- C82 for these images: `finalize()`, which optimizes, gives the same array with and without groups. -/
theorem C82_optimized_once_partial (hE : Env.Shaped E) (hG : Groupless E) (hg : Env.Linear E g) (hV : b = true →
    Env.Void E g) {n : Node}
    (hH : Sharp H n) (hb : Tree.Built n) (ho : NoOv n) (hn : Once b n)
    (hm : Each (Present b E) n) {fuel fuel' : Nat} {m m' : Node}
    (h : opt H fuel n = .ok m) (h' : opt H fuel' (ungroup n) = .ok m') :
    ∃ a b, finalize H E fuel n = .ok a ∧ finalize H E fuel' (ungroup n) = .ok b ∧ a.Same b := by
  obtain ⟨i, a, hi, ha, s1⟩ := C36_arrays_once_partial H hE hg hV hH hb ho hn hm fuel h
  have hH' : Sharp H (ungroup n) := hH.imp id fun h => ⟨h.1, ungroup_noov n h.2.1, ungroup_noslack n h.2.2⟩
  obtain ⟨j, b, hj, hb', s2⟩ := C36_arrays_once_partial H hE hg hV hH' (ungroup_built hb) (ungroup_noov n ho)
    (ungroup_once n hn) ((ungroup_each n).2 hm) fuel' h'
  rw [(ungroup_fin hG n hb.ok.1 i).2 hi] at hj
  cases hj
  exact ⟨a, b, ha, hb', same_trans (same_symm s1) s2⟩

/-- `onceTree` in a group in a group. -/
example : ∃ a b, finalize Heur.code bilEnv 40 (.concat [.concat [onceTree, onceTree] (3, 2), onceTree] (3, 2)) = .ok a ∧
    finalize Heur.code bilEnv 40 (.concat [onceTree, onceTree, onceTree] (3, 2)) = .ok b ∧ a.Same b := by
  obtain ⟨h1, h2, h3, h4, h5⟩ := onceTree_ok
  let n : Node := .concat [.concat [onceTree, onceTree] (3, 2), onceTree] (3, 2)
  have hb : Tree.Built n := by
    refine .concat [.concat [onceTree, onceTree] (3, 2), onceTree] _ ?_ rfl
    intro p hp
    simp only [List.mem_cons, List.not_mem_nil, or_false] at hp
    rcases hp with rfl | rfl
    · refine .concat [onceTree, onceTree] _ ?_ rfl
      intro p hp
      simp only [List.mem_cons, List.not_mem_nil, or_false] at hp
      rcases hp with rfl | rfl <;> exact h1
    · exact h1
  have ho : NoOv n := ⟨⟨h2, h2, trivial⟩, h2, trivial⟩
  have hz : NoSlack onceTree := ⟨rfl, trivial, trivial, trivial, trivial⟩
  obtain ⟨m, e, _⟩ := holds_ok (x := opt Heur.code 40 n) (f := fun _ => true) (by decide +kernel)
  obtain ⟨m', e', _⟩ := holds_ok (x := opt Heur.code 40 (ungroup n)) (f := fun _ => true) (by decide +kernel)
  exact C82_optimized_once_partial bilEnv_shaped (fun _ _ _ => rfl) bil_linear (fun _ => bil_void)
    (sharp_code ho ⟨⟨hz, hz, trivial⟩, hz, trivial⟩) hb ho ⟨⟨h3, h3, trivial⟩, h3, trivial⟩
    ⟨⟨h5, h5, trivial⟩, h5, trivial⟩ e e'

end Verif.Props
