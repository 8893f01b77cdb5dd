/-
C68: concise specs are short.
-/
import Verif.Props.Fused
import Verif.Props.Chan

namespace Verif.Props

open Fused Chan

/-- The second code is the next channel of the same name. -/
def Consecutive (c d : Str) : Prop := ∃ r i, '.' ∉ r ∧ c = dotted r i ∧ d = dotted r (i + 1)

open Classical in
/-- The number of runs of consecutive channels. -/
noncomputable def runs : List Str → Nat
  | [] => 0
  | [_] => 1
  | c :: d :: l => (if Consecutive c d then 0 else 1) + runs (d :: l)

theorem runs_append : ∀ a b : List Str, runs (a ++ b) ≤ runs a + runs b
  | [], b => by simp [runs]
  | [c], [] => by simp [runs]
  | [c], d :: b => by simp only [List.cons_append, List.nil_append, runs]; split <;> omega
  | c :: d :: a, b => by
    have ih := runs_append (d :: a) b
    simp only [List.cons_append, runs] at ih ⊢
    omega

theorem runs_chain : ∀ l : List Str, l.IsChain Consecutive → runs l ≤ 1
  | [], _ => by simp [runs]
  | [c], _ => by simp [runs]
  | c :: d :: l, h => by
    rw [List.isChain_cons_cons] at h
    have ih := runs_chain (d :: l) h.2
    simp only [runs, if_pos h.1]
    omega

theorem runs_snoc : ∀ (l : List Str) (q : Str), (∀ c, l.getLast? = some c → ¬ Consecutive c q) →
    runs (l ++ [q]) = runs l + 1
  | [], q, _ => by simp [runs]
  | [c], q, h => by
    have := h c rfl
    simp [runs, this]
  | c :: d :: l, q, h => by
    have ih := runs_snoc (d :: l) q (by simpa [List.getLast?_cons_cons] using h)
    simp only [List.cons_append, runs] at ih ⊢
    omega

theorem runs_extend : ∀ (l : List Str) (c q : Str), l.getLast? = some c → Consecutive c q →
    runs (l ++ [q]) = runs l
  | [], c, q, h, _ => by simp at h
  | [d], c, q, h, hc => by
    simp at h
    subst h
    simp [runs, hc]
  | d :: e :: l, c, q, h, hc => by
    have ih := runs_extend (e :: l) c q (by simpa [List.getLast?_cons_cons] using h) hc
    simp only [List.cons_append, runs] at ih ⊢
    omega

theorem dotted_inj' {r s : Str} {i j : Int} (hr : '.' ∉ r) (hs : '.' ∉ s) (h : dotted r i = dotted s j) :
    r = s ∧ i = j := by
  have h1 := splitTwo_dotted hr i
  rw [h, splitTwo_dotted hs j] at h1
  simp only [Except.ok.injEq, Prod.mk.injEq] at h1
  refine ⟨h1.1.symm, ?_⟩
  have h2 := pyInt_intStr i
  rw [← h1.2, pyInt_intStr] at h2
  simpa using h2.symm

/-- What the loop of `concise` has read is written in as few codes as possible. -/
structure Tight (st : CState) (t : List Str) : Prop where
  count : st.parts.length + (if st.acc.isSome then 1 else 0) = runs t
  shut : st.acc = none → ∀ c, t.getLast? = some c → '.' ∉ c
  opened : ∀ r a b, st.acc = some (r, a, b) → '.' ∉ r ∧ t.getLast? = some (dotted r (b - 1))

theorem conciseStep_tight {st st' : CState} {p : Str} {t : List Str} (ht : Tight st t)
    (h : conciseStep st p = .ok st') : ∃ q, respell p = .ok q ∧ Tight st' (t ++ [q]) := by
  unfold conciseStep at h
  split at h
  · next hdot =>
    rw [Except.bind_eq_ok'] at h
    obtain ⟨⟨root, suf⟩, hsp, h⟩ := h
    simp only at h
    rw [Except.bind_eq_ok'] at h
    obtain ⟨i, hi, h⟩ := h
    obtain ⟨-, hra, -⟩ := splitTwo_eq_ok hsp
    refine ⟨dotted root i, by simp [respell, hdot, hsp, hi], ?_⟩
    have hc := ht.count
    split at h
    · next r a b hacc =>
      obtain ⟨hr, hl⟩ := ht.opened r a b hacc
      simp only [hacc, Option.isSome_some, if_true] at hc
      have other : ¬ (r = root ∧ i = b) → Tight ⟨st.parts ++ [formatReady r a b], some (root, i, i + 1)⟩
          (t ++ [dotted root i]) := by
        intro hne
        refine ⟨?_, by simp, ?_⟩
        · rw [runs_snoc]
          · simp; omega
          · rintro c hc' ⟨s, j, hs, rfl, e2⟩
            rw [hl] at hc'
            simp only [Option.some.injEq] at hc'
            obtain ⟨e3, e4⟩ := dotted_inj' hr hs hc'
            obtain ⟨e5, e6⟩ := dotted_inj' hra hs e2
            exact hne ⟨e3.trans e5.symm, by omega⟩
        · intro r' a' b' e
          simp only [Option.some.injEq, Prod.mk.injEq] at e
          obtain ⟨rfl, rfl, rfl⟩ := e
          exact ⟨hra, by simp⟩
      split at h
      · next hrr =>
        split at h
        · next hib =>
          cases h
          subst hrr hib
          refine ⟨?_, by simp, ?_⟩
          · rw [runs_extend t _ _ hl ⟨r, i - 1, hr, rfl, by simp⟩]
            simpa using hc
          · intro r' a' b' e
            simp only [Option.some.injEq, Prod.mk.injEq] at e
            obtain ⟨rfl, rfl, rfl⟩ := e
            exact ⟨hr, by simp⟩
        · next hib => cases h; exact other (fun e => hib e.2)
      · next hrr => cases h; exact other (fun e => hrr e.1)
    · next hacc =>
      cases h
      simp [hacc] at hc
      refine ⟨?_, by simp, ?_⟩
      · rw [runs_snoc]
        · simp [hc]
        · rintro c hc' ⟨s, j, hs, rfl, -⟩
          exact ht.shut hacc _ hc' (dot_mem_dotted _ _)
      · intro r' a' b' e
        simp only [Option.some.injEq, Prod.mk.injEq] at e
        obtain ⟨rfl, rfl, rfl⟩ := e
        exact ⟨hra, by simp⟩
  · next hdot =>
    refine ⟨p, respell_of_no_dot hdot, ?_⟩
    have hn : ∀ c, t.getLast? = some c → ¬ Consecutive c p := by
      rintro c - ⟨s, j, -, -, rfl⟩
      exact hdot (dot_mem_dotted _ _)
    have hc := ht.count
    split at h
    · next r a b hacc =>
      cases h
      simp [hacc] at hc
      refine ⟨?_, ?_, by simp⟩
      · rw [runs_snoc t p hn]; simp; omega
      · intro _ c e
        simp at e
        subst e
        exact hdot
    · next hacc =>
      cases h
      simp [hacc] at hc
      refine ⟨?_, ?_, by simp⟩
      · rw [runs_snoc t p hn]; simp [hc]
      · intro _ c e
        simp at e
        subst e
        exact hdot

theorem conciseLoop_tight : ∀ (l : List Str) {st st' : CState} {t : List Str}, Tight st t →
    conciseLoop st l = .ok st' → ∃ qs, respellAll l = .ok qs ∧ Tight st' (t ++ qs)
  | [], st, st', t, ht, h => by
    cases h
    exact ⟨[], rfl, by simpa using ht⟩
  | p :: ps, st, st', t, ht, h => by
    simp only [conciseLoop] at h
    rw [Except.bind_eq_ok'] at h
    obtain ⟨s1, h1, h2⟩ := h
    obtain ⟨q, hq, ht1⟩ := conciseStep_tight ht h1
    obtain ⟨qs, hqs, ht2⟩ := conciseLoop_tight ps ht1 h2
    exact ⟨q :: qs, by simp [respellAll, hq, hqs], by simpa using ht2⟩

theorem flush_length (st : CState) : st.flush.length = st.parts.length + (if st.acc.isSome then 1 else 0) := by
  unfold CState.flush
  cases st.acc with
  | none => simp
  | some a => simp

/-- A written code that stands for one channel or for consecutive ones, so no alias of several channels and no
slice with a step. -/
def RunCode (c : Str) : Prop := ∃ l, asList ⟨[c], false⟩ = .ok l ∧ l.IsChain Consecutive

theorem runs_le_length : ∀ (cs : List Str), (∀ c ∈ cs, RunCode c) → ∀ l, asList ⟨cs, false⟩ = .ok l →
    runs l ≤ cs.length
  | [], _, l, h => by
    rw [asList_false] at h
    cases h
    simp [runs]
  | c :: cs, hc, l, h => by
    rw [asList_false] at h
    simp only [normParts] at h
    rw [Except.bind_eq_ok'] at h
    obtain ⟨a, ha, h⟩ := h
    rw [Except.bind_eq_ok'] at h
    obtain ⟨b, hb, h⟩ := h
    cases h
    obtain ⟨l, hl, hch⟩ := hc c (by simp)
    rw [asList_false, normParts_single, ha] at hl
    cases hl
    have h1 := runs_chain a hch
    have h2 := runs_le_length cs (fun x hx => hc x (by simp [hx])) b (by rw [asList_false, hb])
    have h3 := runs_append a b
    simp only [List.length_cons]
    omega

theorem concise_runs {f g : Fused} (h : Built f) (hg : f.concise = .ok g) :
    ∃ l, g.asList = .ok l ∧ g.parsed.length = runs l := by
  cases hl : f.asList with
  | error e =>
    unfold Fused.concise at hg
    unfold asList at hl
    cases hn : f.normalize with
    | error _ => rw [hn] at hg; cases hg
    | ok n => rw [hn] at hl; cases hl
  | ok l =>
    obtain ⟨l', h1, h2, -⟩ := (C03_concise_general h hl).2 g hg
    refine ⟨l', h2, ?_⟩
    have hn := hl
    rw [asList_eq h.flagSound] at hn
    have hnorm : f.normalize = .ok ⟨l, true⟩ := by rw [normalize_eq h.flagSound, hn]; rfl
    unfold Fused.concise at hg
    rw [hnorm] at hg
    simp only [Except.ok_bind'] at hg
    rw [Except.bind_eq_ok'] at hg
    obtain ⟨st, hst, hg⟩ := hg
    cases hg
    obtain ⟨qs, hqs, ht⟩ := conciseLoop_tight l (st := ⟨[], none⟩) (t := [])
      ⟨by simp [runs], by simp, by simp⟩ hst
    rw [h1] at hqs
    cases hqs
    rw [flush_length, ht.count]
    simp

/-- C68: no spec of the same channels has fewer codes than the concise one, if its codes stand for one channel or
for consecutive channels.  Missing: aliases and slices with steps, for which it fails. -/
theorem C68_shortest_partial {f g : Fused} (h : Built f) (hg : f.concise = .ok g) (cs : List Str)
    (hr : ∀ c ∈ cs, RunCode c) (he : asList ⟨cs, false⟩ = g.asList) : g.parsed.length ≤ cs.length := by
  obtain ⟨l, h1, h2⟩ := concise_runs h hg
  rw [h2]
  exact runs_le_length cs hr l (he.trans h1)

/-- C68: slices without a step are among the spellings compared with: `root.a:b`, `root:b`. -/
theorem C68_slices_compared {root : Str} (h1 : '.' ∉ root) (h2 : ':' ∉ root) (a b : Int) :
    RunCode (root ++ ':' :: intStr b) ∧ RunCode (root ++ '.' :: (intStr a ++ ':' :: intStr b)) := by
  have chain : ∀ (a : Int) (l : List Int), SliceNumbers a b 1 l → (l.map (dotted root)).IsChain Consecutive := by
    intro a l hl
    obtain ⟨n, rfl, -⟩ := hl
    rw [List.map_map, List.isChain_map, List.isChain_range]
    intro k hk
    exact ⟨root, a + k * 1, h1, rfl, by simp [add_assoc]⟩
  obtain ⟨⟨l, hl, hs⟩, ⟨l2, hl2, hs2⟩, -⟩ := C02_slice_forms h1 h2 (some a) none b (by decide) '.' (.inl rfl)
  exact ⟨⟨_, hl, chain 0 l hs⟩, ⟨_, hl2, chain a l2 hs2⟩⟩

/-- C68: the concise spelling is a function of the channels alone: specs of the same channels have the same one. -/
theorem C68_canonical {f g : Fused} (hf : Built f) (hg : Built g) {l : List Str} (h1 : f.asList = .ok l)
    (h2 : g.asList = .ok l) : f.concise = g.concise := by
  have e : ∀ {f : Fused}, Built f → f.asList = .ok l → f.normalize = .ok ⟨l, true⟩ := by
    intro f hf h
    rw [asList_eq hf.flagSound] at h
    rw [normalize_eq hf.flagSound, h]
    rfl
  unfold Fused.concise
  rw [e hf h1, e hg h2]

/-- Ten channels in six codes. -/
example : ∃ g, (parse (p! "m:3|m.3|q.2:4|q.3|rgb")).concise = .ok g ∧ g.parsed.length = 6 ∧
    g.spec = p! "m:4|q.2:4|q.3|r|g|b" := ⟨⟨[p! "m:4", p! "q.2:4", p! "q.3", p! "r", p! "g", p! "b"], false⟩,
      by decide, by decide, by decide⟩

theorem plain_run {c : Str} (h : needsNorm c = false) : RunCode c :=
  ⟨[c], by rw [asList_false, normParts_single, expandCode_of_not_needs h], by simp⟩

/-- A longer spelling the theorem compares with. -/
example : (parse (p! "m:2|m.2|m.3|q.2:4")).concise = .ok ⟨[p! "m:4", p! "q.2:4"], false⟩ ∧
    (∀ c ∈ [p! "m:2", p! "m.2:4", p! "q.2", p! "q.3"], RunCode c) ∧
    asList ⟨[p! "m:2", p! "m.2:4", p! "q.2", p! "q.3"], false⟩ = asList ⟨[p! "m:4", p! "q.2:4"], false⟩ := by
  refine ⟨by decide, ?_, by decide⟩
  intro c hc
  simp only [List.mem_cons, List.not_mem_nil, or_false] at hc
  have hm := C68_slices_compared (root := p! "m") (by decide) (by decide) 2
  rcases hc with rfl | rfl | rfl | rfl
  · exact (hm 2).1
  · exact (hm 4).2
  · exact plain_run (by decide)
  · exact plain_run (by decide)

/-- C68 fails for aliases: the concise spelling of `rgb` has three codes instead of one. -/
theorem C68_alias_violated : ∃ g, (parse (p! "rgb")).concise = .ok g ∧ (parse (p! "rgb")).asList = g.asList ∧
    (parse (p! "rgb")).parsed.length < g.parsed.length :=
  ⟨⟨[p! "r", p! "g", p! "b"], false⟩, by decide, by decide, by decide⟩

/-- C68 fails for slices with a step: `m.0:6:2` becomes three codes. -/
theorem C68_step_violated : ∃ g, (parse (p! "m.0:6:2")).concise = .ok g ∧
    (parse (p! "m.0:6:2")).asList = g.asList ∧ (parse (p! "m.0:6:2")).parsed.length < g.parsed.length :=
  ⟨⟨[p! "m.0", p! "m.2", p! "m.4"], false⟩, by decide, by decide, by decide⟩

/-- C68: `concise` of a spec of several streams: the streams are the concise ones, in order, if these are
distinct.  Missing: streams with the same concise spelling, which become one. -/
theorem C68_streams_partial (ss gss : List (List Str)) (hne : ss ≠ []) (hok : ∀ g ∈ ss, StreamOk g)
    (hnd : ss.Nodup) (hl : ss.map (fun g => Fused.concise ⟨g, false⟩) = gss.map fun g => .ok ⟨g, false⟩)
    (hdist : (gss.map (joinWith '|')).Nodup) :
    ∃ c, Chan.concise ⟨specOf ss, none⟩ = .ok c ∧ c.spec = specOf gss ∧
      c.parse.map (fun p => p.2.parsed) = gss := by
  have key : ∀ (ss gss : List (List Str)) (acc : List (Str × Fused)),
      (ss.map (fun g => Fused.concise ⟨g, false⟩) = gss.map fun g => .ok ⟨g, false⟩) →
      (acc.map Prod.fst ++ gss.map (joinWith '|')).Nodup →
      mapStreams Fused.concise acc (ss.map (fun g => (joinWith '|' g, (⟨g, false⟩ : Fused)))) =
        .ok (acc ++ gss.map (fun l => (joinWith '|' l, (⟨l, false⟩ : Fused)))) := by
    intro ss
    induction ss with
    | nil => intro gss acc h _; cases gss <;> simp at h; simp [mapStreams]
    | cons s ss ih =>
      intro gss acc h hn
      cases gss with
      | nil => simp at h
      | cons l gss =>
        simp only [List.map_cons, List.cons.injEq] at h
        simp only [List.map_cons, mapStreams, h.1, Except.ok_bind', Fused.spec]
        rw [dictSet_of_not_mem, ih gss _ h.2]
        · simp
        · simpa using hn
        · rw [List.nodup_append] at hn
          intro hm
          exact hn.2.2 _ hm _ (by simp) rfl
  unfold Chan.concise
  rw [parse_specOf hne hok hnd, key ss gss [] hl (by simpa using hdist)]
  refine ⟨_, rfl, ?_, ?_⟩
  · simp [specOf, List.map_map, Function.comp_def]
  · simp [Chan.parse, List.map_map, Function.comp_def]

example : (Chan.concise ⟨p! "b1|b2,b3|rgb|B.0,B.1|B.2", none⟩).map Chan.spec = .ok (p! "b1|b2,b3|r|g|b|B.0,B.1:3") := by
  decide

/-- C68: two streams with the same concise spelling become one, and half of the channels are gone. -/
theorem C68_streams_violated : ∃ c, Chan.concise ⟨p! "m:2,m.0|m.1", none⟩ = .ok c ∧ c.spec = p! "m:2" ∧
    Chan.numel ⟨p! "m:2,m.0|m.1", none⟩ = .ok 4 ∧ c.numel = .ok 2 :=
  ⟨⟨p! "m:2", some [(p! "m:2", ⟨[p! "m:2"], false⟩)]⟩, by decide, by decide, by decide, by decide⟩

end Verif.Props
