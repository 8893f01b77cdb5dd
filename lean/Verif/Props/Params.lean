/-
C52: parameters given to `finalize`.
-/
import Verif.Params
import Verif.Props.Resize

namespace Verif.Props

open Tree Helpers

mutual
/-- The parameters of all warps of an image. -/
def warpAlgos : Node → List Algo
  | .leaf _ => []
  | .concat ps _ => warpAlgosL ps
  | .warp s _ _ a => a :: warpAlgos s
  | .crop s _ _ _ _ _ => warpAlgos s
  | .overview s _ _ => warpAlgos s
  | .dequant s _ _ => warpAlgos s
def warpAlgosL : List Node → List Algo
  | [] => []
  | p :: ps => warpAlgos p ++ warpAlgosL ps
end

/-- A warp has the given parameters (the backend left aside). -/
structure Obeys (k : Kwargs) (a : Algo) : Prop where
  interp : ∀ v, k.interp = some v → a.interp = v
  antialias : ∀ v, k.antialias = some v → a.antialias = v
  border : ∀ v, k.border = some v → a.border = v
  noopEps : ∀ v, k.noopEps = some v → a.noopEps = v

/-- Two sets of parameters differ at most in the given ones. -/
structure Keeps (k : Kwargs) (a b : Algo) : Prop where
  interp : k.interp = none → b.interp = a.interp
  antialias : k.antialias = none → b.antialias = a.antialias
  border : k.border = none → b.border = a.border
  noopEps : k.noopEps = none → b.noopEps = a.noopEps
  backend : k.backend = none → b.backend = a.backend

theorem update_obeys (k : Kwargs) (a : Algo) : Obeys k (k.update a) := by
  constructor <;> intro v h <;> simp [Kwargs.update, h]

theorem update_keeps (k : Kwargs) (a : Algo) : Keeps k a (k.update a) := by
  constructor <;> intro h <;> simp [Kwargs.update, h]

mutual
theorem setParams_algos (k : Kwargs) : ∀ n : Node, warpAlgos (setParams k n) = (warpAlgos n).map k.update
  | .leaf _ => rfl
  | .concat ps _ => setParamsL_algos k ps
  | .warp s _ _ a => by simp [setParams, warpAlgos, setParams_algos k s]
  | .crop s _ _ _ _ _ => setParams_algos k s
  | .overview s _ _ => setParams_algos k s
  | .dequant s _ _ => setParams_algos k s
theorem setParamsL_algos (k : Kwargs) : ∀ ps : List Node,
    warpAlgosL (setParamsL k ps) = (warpAlgosL ps).map k.update
  | [] => rfl
  | p :: ps => by simp [setParamsL, warpAlgosL, setParams_algos k p, setParamsL_algos k ps]
end

@[simp] theorem setParams_dsize (k : Kwargs) (n : Node) : (setParams k n).dsize = n.dsize := by
  cases n <;> simp [setParams, Node.dsize]

mutual
theorem setParams_meta (k : Kwargs) : ∀ n : Node, (setParams k n).nchan = n.nchan ∧
    (setParams k n).channels = n.channels ∧ (setParams k n).numOverviews = n.numOverviews ∧
    den (setParams k n) = den n
  | .leaf _ => ⟨rfl, rfl, rfl, rfl⟩
  | .concat ps _ => by
    obtain ⟨h1, h2, h3, h4⟩ := setParamsL_meta k ps
    simp [setParams, Node.nchan, Node.channels, Node.numOverviews, den, h1, h2, h3, h4]
  | .warp s _ _ a => by
    obtain ⟨h1, h2, h3, h4⟩ := setParams_meta k s
    simp [setParams, Node.nchan, Node.channels, Node.numOverviews, den, h1, h2, h3, h4]
  | .crop s _ _ _ _ _ => by
    obtain ⟨h1, h2, h3, h4⟩ := setParams_meta k s
    simp [setParams, Node.nchan, Node.channels, Node.numOverviews, den, h1, h2, h3, h4]
  | .overview s _ _ => by
    obtain ⟨h1, h2, h3, h4⟩ := setParams_meta k s
    simp [setParams, Node.nchan, Node.channels, Node.numOverviews, den, h1, h2, h3, h4]
  | .dequant s _ _ => by
    obtain ⟨h1, h2, h3, h4⟩ := setParams_meta k s
    simp [setParams, Node.nchan, Node.channels, Node.numOverviews, den, h1, h2, h3, h4]
theorem setParamsL_meta (k : Kwargs) : ∀ ps : List Node, Node.nchans (setParamsL k ps) = Node.nchans ps ∧
    Node.channelsL (setParamsL k ps) = Node.channelsL ps ∧
    Node.numOverviewsL (setParamsL k ps) = Node.numOverviewsL ps ∧
    denL (setParamsL k ps) = denL ps
  | [] => ⟨rfl, rfl, rfl, rfl⟩
  | p :: ps => by
    obtain ⟨h1, h2, h3, h4⟩ := setParams_meta k p
    obtain ⟨h5, h6, h7, h8⟩ := setParamsL_meta k ps
    simp [setParamsL, Node.nchans, Node.channelsL, Node.numOverviewsL, denL, h1, h2, h3, h4, h5, h6, h7, h8]
end

/-- C52: setting parameters gives every warp of the image the given ones and leaves it the others; sizes,
codes, numbers of channels and overviews and the place and source of the data are unchanged. -/
theorem C52_set (k : Kwargs) (n : Node) :
    List.Forall₂ (fun a b => Obeys k b ∧ Keeps k a b ∧ ∀ v, k.backend = some v → b.backend = v)
      (warpAlgos n) (warpAlgos (setParams k n)) ∧
    (setParams k n).dsize = n.dsize ∧ (setParams k n).nchan = n.nchan ∧
    (setParams k n).channels = n.channels ∧ (setParams k n).numOverviews = n.numOverviews ∧
    den (setParams k n) = den n := by
  obtain ⟨h1, h2, h3, h4⟩ := setParams_meta k n
  refine ⟨?_, setParams_dsize k n, h1, h2, h3, h4⟩
  rw [setParams_algos]
  generalize warpAlgos n = l
  induction l with
  | nil => exact .nil
  | cons a l ih =>
    exact .cons ⟨update_obeys k a, update_keeps k a, fun v h => by simp [Kwargs.update, h]⟩ ih

/-- Later arguments win. -/
def Kwargs.over (k' k : Kwargs) : Kwargs :=
  ⟨k'.interp.or k.interp, k'.antialias.or k.antialias, k'.border.or k.border, k'.noopEps.or k.noopEps,
    k'.backend.or k.backend⟩

theorem update_over (k k' : Kwargs) (a : Algo) : k'.update (k.update a) = (Kwargs.over k' k).update a := by
  simp only [Kwargs.update, Kwargs.over, Algo.mk.injEq]
  refine ⟨?_, ?_, ?_, ?_, ?_⟩
  · cases k'.interp <;> rfl
  · cases k'.antialias <;> rfl
  · cases k'.border <;> rfl
  · cases k'.noopEps <;> rfl
  · cases k'.backend <;> rfl

mutual
theorem setParams_over (k k' : Kwargs) : ∀ n : Node,
    setParams k' (setParams k n) = setParams (Kwargs.over k' k) n
  | .leaf _ => rfl
  | .concat ps _ => by simp [setParams, setParamsL_over k k' ps]
  | .warp s _ _ a => by simp [setParams, setParams_over k k' s, update_over]
  | .crop s _ _ _ _ _ => by simp [setParams, setParams_over k k' s]
  | .overview s _ _ => by simp [setParams, setParams_over k k' s]
  | .dequant s _ _ => by simp [setParams, setParams_over k k' s]
theorem setParamsL_over (k k' : Kwargs) : ∀ ps : List Node,
    setParamsL k' (setParamsL k ps) = setParamsL (Kwargs.over k' k) ps
  | [] => rfl
  | p :: ps => by simp [setParamsL, setParams_over k k' p, setParamsL_over k k' ps]
end

/-- C52: the arguments stay: after `finalize(**k)`, a call with `k'` gives what a first call with both
would give, where `k'` wins.  In particular a call without arguments gives the array of the first call
again. -/
theorem C52_persists {V : Type} (H : Heur) (E : Env V) (fuel : Nat) (k k' : Kwargs) (n : Node) :
    finalizeWith H E fuel k' (finalizeWith H E fuel k n).2 = finalizeWith H E fuel (Kwargs.over k' k) n ∧
    (finalizeWith H E fuel ⟨none, none, none, none, none⟩ (finalizeWith H E fuel k n).2).1 =
      (finalizeWith H E fuel k n).1 := by
  constructor
  · simp only [finalizeWith, setParams_over]
  · simp only [finalizeWith, setParams_over]
    rfl

/-- The operation, called with the given parameters. -/
def Act.withParams (k : Kwargs) : Act → Act
  | .warp tf d a => .warp tf d (k.update a)
  | s => s

/-- C52: setting parameters on an image gives the image that would have been built if the parameters had
been given to every warp in the first place. -/
theorem C52_as_if_built (k : Kwargs) : ∀ (ss : List Act) (n : Node),
    runActs (setParams k n) (ss.map (Act.withParams k)) =
      match runActs n ss with
      | .error e => .error e
      | .ok r => .ok (setParams k r)
  | [], n => rfl
  | s :: ss, n => by
    have h : (Act.withParams k s).run (setParams k n) =
        match s.run n with
        | .error e => .error e
        | .ok r => .ok (setParams k r) := by
      cases s with
      | warp tf d a => cases d <;> simp [Act.withParams, Act.run, mkWarp, setParams]
      | crop sl c =>
        have hc : chanCheck (setParams k n) c = chanCheck n c := by
          simp only [chanCheck, (setParams_meta k n).2.1]
        simp only [Act.withParams, Act.run, mkCrop, hc, setParams_dsize]
        cases chanCheck n c with
        | error e => rfl
        | ok u => cases sl <;> simp [setParams]
      | dequant q => simp [Act.withParams, Act.run, mkDequant, setParams]
    simp only [List.map_cons, runActs, h]
    cases s.run n with
    | error e => rfl
    | ok m => exact C52_as_if_built k ss m

mutual
theorem noOv_setParams (k : Kwargs) : ∀ n : Node, NoOv n → NoOv (setParams k n)
  | .leaf _, h => h
  | .concat ps _, h => noOvL_setParams k ps h
  | .warp s _ _ _, h => noOv_setParams k s h
  | .crop s _ _ _ _ _, h => noOv_setParams k s h
  | .overview _ _ _, h => h.elim
  | .dequant s _ _, h => noOv_setParams k s h
theorem noOvL_setParams (k : Kwargs) : ∀ ps : List Node, NoOvL ps → NoOvL (setParamsL k ps)
  | [], _ => trivial
  | p :: ps, h => ⟨noOv_setParams k p h.1, noOvL_setParams k ps h.2⟩
end

theorem mem_warpAlgosL {a : Algo} (ps : List Node) : a ∈ warpAlgosL ps ↔ ∃ p ∈ ps, a ∈ warpAlgos p := by
  induction ps with
  | nil => simp [warpAlgosL]
  | cons p ps ih => simp [warpAlgosL, ih]

/-- Without overviews, `optimize` makes no warps with other parameters. -/
theorem stable_algos {P : Algo → Prop} (hP : ∀ a, P a → P a.common) :
    Stable (fun n => NoOv n ∧ ∀ a ∈ warpAlgos n, P a) where
  sub := by
    intro n x hn h
    cases n with
    | leaf l => simp [subOf] at h
    | concat _ _ => simp [subOf] at h
    | warp s _ _ a => cases h; exact ⟨hn.1, fun b hb => hn.2 b (List.mem_cons_of_mem _ hb)⟩
    | crop s _ _ _ _ _ => cases h; exact hn
    | overview s _ _ => exact hn.1.elim
    | dequant s _ _ => cases h; exact hn
  parts := fun h p hp => ⟨(NoOvL_iff _).1 h.1 p hp, fun a ha => h.2 a ((mem_warpAlgosL _).2 ⟨p, hp, ha⟩)⟩
  concat := by
    intro ps d qs d' _ hq
    refine ⟨(NoOvL_iff _).2 fun q h => (hq q h).1, fun a ha => ?_⟩
    obtain ⟨q, hq', ha⟩ := (mem_warpAlgosL _).1 ha
    exact (hq q hq').2 a ha
  nan := fun _ _ => ⟨.inl rfl, fun a ha => by cases ha⟩
  nanLike := fun _ _ _ _ => ⟨.inl rfl, fun a ha => by cases ha⟩
  crop := fun _ _ _ _ _ h => h
  deq := fun _ _ h => h
  warp := by
    intro s tf d a s' tf' d' h h'
    refine ⟨h'.1, fun b hb => ?_⟩
    rcases List.mem_cons.1 hb with rfl | hb
    · exact h.2 _ (List.mem_cons_self ..)
    · exact h'.2 b hb
  common := by
    intro s tf d a h
    refine ⟨h.1, fun b hb => ?_⟩
    rcases List.mem_cons.1 hb with rfl | hb
    · exact hP _ (h.2 _ (List.mem_cons_self ..))
    · exact h.2 b (List.mem_cons_of_mem _ hb)
  ovOfWarp := fun _ _ h hn h0 => absurd (numOverviews_noOv _ h.1 _ hn) h0
  ov := fun _ _ h => h.1.elim
  warpOfOv := fun _ _ h => h.1.elim

mutual
theorem wf_setParams (k : Kwargs) : ∀ n : Node, WF n → WF (setParams k n)
  | .leaf _, h => h
  | .concat ps d, h => by
    refine ⟨?_, wfL_setParams k d ps h.2⟩
    cases ps with
    | nil => exact absurd rfl h.1
    | cons p ps => simp [setParamsL]
  | .warp s _ _ _, h => ⟨wf_setParams k s h.1, h.2⟩
  | .crop s _ _ _ _ _, h => ⟨wf_setParams k s h.1, h.2.1, h.2.2.1, by
      rw [(setParams_meta k s).1]; exact h.2.2.2⟩
  | .overview s _ _, h => wf_setParams k s h
  | .dequant s _ _, h => wf_setParams k s h
theorem wfL_setParams (k : Kwargs) (d : Int × Int) : ∀ ps : List Node, WFL d ps → WFL d (setParamsL k ps)
  | [], _ => trivial
  | p :: ps, h => ⟨wf_setParams k p h.1, by rw [setParams_dsize]; exact h.2.1, wfL_setParams k d ps h.2.2⟩
end

/-- C52: in an image without overviews that is built with the API, every warp that `finalize(**k)` carries
out uses the given parameters (the backend excepted).  Missing: images with overviews. -/
theorem C52_finalize_partial (H : Heur) {n : Node} (hb : Built n) (ho : NoOv n) (k : Kwargs) (fuel : Nat)
    {m : Node} (h : opt H fuel (setParams k n) = .ok m) : ∀ a ∈ warpAlgos m, Obeys k a := by
  have hs : Stable (fun n => NoOv n ∧ ∀ a ∈ warpAlgos n, Obeys k a) :=
    stable_algos (fun a h => ⟨h.interp, h.antialias, h.border, h.noopEps⟩)
  have g := opt_good (deep := false) (keepRules H (nameRules H) hs) (by simp) fuel _ m
    ⟨wf_setParams k n hb.ok.1, noOv_setParams k n ho, fun a ha => ?_⟩ h
  · exact g.inv.2.2
  · rw [setParams_algos] at ha
    obtain ⟨b, _, rfl⟩ := List.mem_map.1 ha
    exact update_obeys k b

/-- `interpolation='cubic'` (interpolation 2 is cubic, 0 is linear). -/
def cubic : Kwargs := ⟨some (.other 2), none, none, none, none⟩

/-- A padded crop of a warp, which makes a second warp; both are fused. -/
example : ∃ m, opt Heur.code 40 (setParams cubic
      (mkWarp (.crop (mkWarp (.leaf rgbLeaf) (.scale 2) none .default) 0 4 0 4 none) (.trans 1 1) none .default)) =
        .ok m ∧ warpAlgos m = [⟨.other 2, true, none, 0, 0⟩] := by
  obtain ⟨m, h1, h2⟩ := holds_ok (x := opt Heur.code 40 (setParams cubic
      (mkWarp (.crop (mkWarp (.leaf rgbLeaf) (.scale 2) none .default) 0 4 0 4 none) (.trans 1 1) none .default)))
    (f := fun m => decide (warpAlgos m = [⟨.other 2, true, none, 0, 0⟩])) (by decide +kernel)
  exact ⟨m, h1, by simpa using h2⟩

/-- C52, what fails with overviews: the only warp of `halfCrop` is made cubic and the only warp that is
carried out is linear. -/
theorem C52_overviews_violated :
    warpAlgos (setParams cubic halfCrop) = [⟨.other 2, true, none, 0, 0⟩] ∧
    ∃ m, opt Heur.code 40 (setParams cubic halfCrop) = .ok m ∧ warpAlgos m = [.default] ∧
      Algo.default.interp = .other 0 := by
  obtain ⟨m, h1, h2⟩ := holds_ok (x := opt Heur.code 40 (setParams cubic halfCrop))
    (f := fun m => decide (warpAlgos m = [.default])) (by decide +kernel)
  exact ⟨rfl, m, h1, by simpa using h2, rfl⟩

/-- C52, what fails for the backend: two warps with backend 3 are fused into one with the default one. -/
theorem C52_backend_violated :
    ∃ m, opt Heur.code 40 (setParams ⟨none, none, none, none, some 3⟩
      (mkWarp (mkWarp (.leaf rgbLeaf) (.trans 1 1) none .default) (.trans 1 1) none .default)) = .ok m ∧
      warpAlgos m = [.default] ∧ Algo.default.backend = 0 := by
  obtain ⟨m, h1, h2⟩ := holds_ok (x := opt Heur.code 40 (setParams ⟨none, none, none, none, some 3⟩
      (mkWarp (mkWarp (.leaf rgbLeaf) (.trans 1 1) none .default) (.trans 1 1) none .default)))
    (f := fun m => decide (warpAlgos m = [.default])) (by decide +kernel)
  exact ⟨m, h1, by simpa using h2, rfl⟩

end Verif.Props
