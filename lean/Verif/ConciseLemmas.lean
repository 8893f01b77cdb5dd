/-
Loop invariant of `FusedChannelSpec.concise`.
-/
import Verif.ChannelSpecLemmas

set_option linter.unusedSimpArgs false
set_option linter.unusedVariables false

namespace Verif
namespace Fused

/-- The codes `r.a, r.(a+1), ..., r.(b-1)`. -/
def runCodes (r : Str) (a b : Int) : List Str :=
  (List.range (b - a).toNat).map (fun k : Nat => dotted r (a + k))

/-- A dotted code with its integer index written canonically; other codes unchanged.  Fails when
the text after the dot is not an integer or there is more than one dot. -/
def respell (part : Str) : Py Str :=
  if '.' ∈ part then do
    let (root, suf) ← splitTwo part
    let i ← pyInt suf
    .ok (dotted root i)
  else .ok part

def respellAll : List Str → Py (List Str)
  | [] => .ok []
  | p :: ps => do
    let q ← respell p
    let qs ← respellAll ps
    .ok (q :: qs)

theorem splitTwo_eq_ok {p a b : Str} (h : splitTwo p = .ok (a, b)) :
    p = a ++ '.' :: b ∧ '.' ∉ a ∧ '.' ∉ b := by
  unfold splitTwo at h
  split at h
  · next x y hs =>
    simp at h
    obtain ⟨rfl, rfl⟩ := h
    have hj := join_splitOn '.' p
    rw [hs] at hj
    simp [joinWith] at hj
    exact ⟨hj.symm, not_mem_of_mem_splitOn (by rw [hs]; simp), not_mem_of_mem_splitOn (by rw [hs]; simp)⟩
  · simp at h

theorem splitTwo_dotted {r : Str} (h : '.' ∉ r) (i : Int) :
    splitTwo (dotted r i) = .ok (r, intStr i) := by
  unfold splitTwo dotted
  rw [splitOn_append_sep h, splitOn_of_not_mem (intStr_not_mem (by simp))]

theorem respell_dotted {r : Str} (h : '.' ∉ r) (i : Int) : respell (dotted r i) = .ok (dotted r i) := by
  simp [respell, dot_mem_dotted, splitTwo_dotted h, pyInt_intStr]

theorem respell_of_no_dot {p : Str} (h : '.' ∉ p) : respell p = .ok p := by
  simp [respell, h]

theorem runCodes_succ (r : Str) {a b : Int} (h : a ≤ b) :
    runCodes r a (b + 1) = runCodes r a b ++ [dotted r b] := by
  have : (b + 1 - a).toNat = (b - a).toNat + 1 := by omega
  unfold runCodes
  rw [this, List.range_succ, List.map_append]
  congr 2
  simp
  congr 1
  omega

theorem runCodes_one (r : Str) (a : Int) : runCodes r a (a + 1) = [dotted r a] := by
  have : (a + 1 - a).toNat = 1 := by omega
  simp [runCodes, this, List.range_succ]

/-- Expanding the text of a run gives the run. -/
theorem expandCode_formatReady {r : Str} {a b : Int} (hr : '.' ∉ r) (hr' : ':' ∉ r) (hab : a < b) :
    expandCode (formatReady r a b) = .ok (runCodes r a b) := by
  unfold formatReady
  split
  · next h =>
    subst h
    rw [runCodes_one]
    exact expandCode_of_not_needs (needsNorm_dotted hr' a)
  · split
    · next h0 =>
      subst h0
      have hc : ':' ∈ r ++ ':' :: intStr b := by simp
      unfold expandCode
      rw [alias_none_of_mem hc (.inr rfl)]
      have hd : splitOnce '.' (r ++ ':' :: intStr b) = none := by
        have : ¬ (splitOnce '.' (r ++ ':' :: intStr b)).isSome := by
          rw [splitOnce_isSome_iff]
          simp [hr, intStr_not_mem (i := b) (c := '.') (by simp)]
        simpa using this
      have hs : splitOnce ':' (r ++ ':' :: intStr b) = some (r, intStr b) := splitOnce_append hr'
      have hargs : splitOn ':' (intStr b) = [intStr b] :=
        splitOn_of_not_mem (intStr_not_mem (by simp))
      simp only [hc, if_true, parseSlice, sliceParts, hd, hs, hargs, sliceArgs, pyInt_intStr,
        Except.ok_bind', hr, hr', or_self, if_false]
      simp only [pyRange]
      rw [if_neg (by decide), if_pos (by decide)]
      simp only [Except.ok_bind']
      rw [rangeUp_one (Nat.le_refl _)]
      simp [runCodes]
    · next h1 h0 =>
      have hc : ':' ∈ r ++ '.' :: (intStr a ++ ':' :: intStr b) := by simp
      unfold expandCode
      rw [alias_none_of_mem hc (.inr rfl)]
      have hs : splitOnce '.' (r ++ '.' :: (intStr a ++ ':' :: intStr b)) =
          some (r, intStr a ++ ':' :: intStr b) := splitOnce_append hr
      have hargs : splitOn ':' (intStr a ++ ':' :: intStr b) = [intStr a, intStr b] := by
        rw [splitOn_append_sep (intStr_not_mem (by simp)),
          splitOn_of_not_mem (intStr_not_mem (by simp))]
      have hsp : sliceParts (r ++ '.' :: (intStr a ++ ':' :: intStr b)) =
          .ok (r, [intStr a, intStr b]) := by
        unfold sliceParts
        simp only [hs, hargs]
        rfl
      have hsa : sliceArgs [intStr a, intStr b] = .ok (a, some b, 1) := by
        simp [sliceArgs, intOr, intOrNone, intStr_ne_nil, pyInt_intStr]
      simp only [hc, if_true, parseSlice, hsp, hsa, Except.ok_bind', hr, hr', or_self, if_false,
        pyRange]
      rw [if_neg (by decide), if_pos (by decide)]
      simp only [Except.ok_bind']
      rw [rangeUp_one (Nat.le_refl _)]
      simp [runCodes]

/-- What an open run stands for. -/
def accCodes : Option (Str × Int × Int) → List Str
  | some (r, a, b) => runCodes r a b
  | none => []

/-- Invariant of the open run. -/
def AccOk : Option (Str × Int × Int) → Prop
  | some (r, a, b) => '.' ∉ r ∧ ':' ∉ r ∧ a < b
  | none => True

theorem normParts_single (v : Str) : normParts [v] = expandCode v := by
  simp [normParts]
  cases expandCode v <;> simp

theorem conciseStep_spec {st st' : CState} {p : Str} {done : List Str}
    (hp : needsNorm p = false) (hok : AccOk st.acc) (hd : normParts st.parts = .ok done)
    (h : conciseStep st p = .ok st') :
    AccOk st'.acc ∧ ∃ q done', respell p = .ok q ∧ normParts st'.parts = .ok done' ∧
      done' ++ accCodes st'.acc = done ++ accCodes st.acc ++ [q] := by
  have hcol : ':' ∉ p := by simp [needsNorm] at hp; exact hp.2
  unfold conciseStep at h
  split at h
  · next hdot =>
    rw [Except.bind_eq_ok'] at h
    obtain ⟨⟨root, suf⟩, hsp, h⟩ := h
    simp only at h
    rw [Except.bind_eq_ok'] at h
    obtain ⟨i, hi, h⟩ := h
    have hq : respell p = .ok (dotted root i) := by simp [respell, hdot, hsp, hi]
    obtain ⟨hpe, hra, _⟩ := splitTwo_eq_ok hsp
    have hrc : ':' ∉ root := by
      intro hm; apply hcol; rw [hpe]; simp [hm]
    have hnew : AccOk (some (root, i, i + 1)) := ⟨hra, hrc, by omega⟩
    have happ : ∀ r a b, st.acc = some (r, a, b) →
        normParts (st.parts ++ [formatReady r a b]) = .ok (done ++ runCodes r a b) := by
      intro r a b e
      rw [e] at hok
      rw [normParts_append, hd, normParts_single, expandCode_formatReady hok.1 hok.2.1 hok.2.2]
      rfl
    split at h
    · next r a b hacc =>
      rw [hacc] at hok
      split at h
      · next hr =>
        subst hr
        split at h
        · next hib =>
          subst hib
          cases h
          refine ⟨⟨hok.1, hok.2.1, ?_⟩, _, done, hq, hd, ?_⟩
          · have := hok.2.2; omega
          · simp [hacc, accCodes, runCodes_succ r (show a ≤ i by have := hok.2.2; omega)]
        · cases h
          refine ⟨hnew, _, _, hq, happ r a b hacc, ?_⟩
          simp [hacc, accCodes, runCodes_one]
      · cases h
        refine ⟨hnew, _, _, hq, happ r a b hacc, ?_⟩
        simp [hacc, accCodes, runCodes_one]
    · next hacc =>
      cases h
      refine ⟨hnew, _, _, hq, hd, ?_⟩
      simp [hacc, accCodes, runCodes_one]
  · next hdot =>
    split at h
    · next r a b hacc =>
      rw [hacc] at hok
      cases h
      refine ⟨trivial, p, done ++ runCodes r a b ++ [p], respell_of_no_dot hdot, ?_, ?_⟩
      · have e : st.parts ++ [formatReady r a b, p] = st.parts ++ ([formatReady r a b] ++ [p]) := rfl
        rw [e, normParts_append, hd, normParts_append, normParts_single, normParts_single,
          expandCode_formatReady hok.1 hok.2.1 hok.2.2, expandCode_of_not_needs hp]
        simp
      · simp [hacc, accCodes]
    · next hacc =>
      cases h
      refine ⟨trivial, p, done ++ [p], respell_of_no_dot hdot, ?_, ?_⟩
      · rw [normParts_append, hd, normParts_single, expandCode_of_not_needs hp]; rfl
      · simp [hacc, accCodes]

theorem conciseLoop_spec {st st' : CState} {l : List Str} {done : List Str}
    (hl : ∀ p ∈ l, needsNorm p = false) (hok : AccOk st.acc) (hd : normParts st.parts = .ok done)
    (h : conciseLoop st l = .ok st') :
    AccOk st'.acc ∧ ∃ qs done', respellAll l = .ok qs ∧ normParts st'.parts = .ok done' ∧
      done' ++ accCodes st'.acc = done ++ accCodes st.acc ++ qs := by
  induction l generalizing st done with
  | nil => cases h; exact ⟨hok, [], done, rfl, hd, by simp⟩
  | cons p ps ih =>
    simp only [conciseLoop] at h
    rw [Except.bind_eq_ok'] at h
    obtain ⟨st1, h1, h⟩ := h
    obtain ⟨hok1, q, done1, hq, hd1, he1⟩ := conciseStep_spec (hl p (by simp)) hok hd h1
    obtain ⟨hok2, qs, done2, hqs, hd2, he2⟩ := ih (fun x hx => hl x (by simp [hx])) hok1 hd1 h
    refine ⟨hok2, q :: qs, done2, by simp [respellAll, hq, hqs], hd2, ?_⟩
    rw [he2, he1]
    simp

theorem normParts_flush {st : CState} {done : List Str} (hok : AccOk st.acc)
    (hd : normParts st.parts = .ok done) : normParts st.flush = .ok (done ++ accCodes st.acc) := by
  unfold CState.flush
  cases hacc : st.acc with
  | none => simp [accCodes, hd]
  | some t =>
    obtain ⟨r, a, b⟩ := t
    rw [hacc] at hok
    simp only [accCodes]
    rw [normParts_append, hd, normParts_single, expandCode_formatReady hok.1 hok.2.1 hok.2.2]
    rfl

/-- The loop raises exactly when some code cannot be respelled, and with the same exception. -/
theorem conciseLoop_error (st : CState) (l : List Str) (e : PyErr) :
    conciseLoop st l = .error e ↔ respellAll l = .error e := by
  induction l generalizing st with
  | nil => simp [conciseLoop, respellAll]
  | cons p ps ih =>
    have hstep : (∀ e, conciseStep st p = .error e ↔ respell p = .error e) := by
      intro e
      unfold conciseStep respell
      split
      · cases splitTwo p with
        | error _ => simp
        | ok t =>
          obtain ⟨r, s⟩ := t
          simp only [Except.ok_bind']
          cases pyInt s with
          | error _ => simp
          | ok i => simp only [Except.ok_bind']; split <;> (try split) <;> (try split) <;> simp
      · split <;> simp
    simp only [conciseLoop, respellAll]
    cases hs : conciseStep st p with
    | error e' =>
      rw [(hstep e').1 hs]; simp
    | ok st1 =>
      cases hr : respell p with
      | error e' => rw [(hstep e').2 hr] at hs; cases hs
      | ok q =>
        simp only [Except.ok_bind']
        rw [ih]
        cases respellAll ps <;> simp

theorem conciseStep_respell {p q : Str} (st : CState) (h : respell p = .ok q) :
    conciseStep st q = conciseStep st p := by
  unfold respell at h
  split at h
  · next hdot =>
    rw [Except.bind_eq_ok'] at h
    obtain ⟨⟨root, suf⟩, hsp, h⟩ := h
    simp only at h
    rw [Except.bind_eq_ok'] at h
    obtain ⟨i, hi, h⟩ := h
    cases h
    obtain ⟨_, hra, _⟩ := splitTwo_eq_ok hsp
    unfold conciseStep
    simp only [hdot, dot_mem_dotted, if_true, hsp, splitTwo_dotted hra, Except.ok_bind', hi,
      pyInt_intStr]
  · cases h; rfl

theorem conciseLoop_respell {l l' : List Str} (st : CState) (h : respellAll l = .ok l') :
    conciseLoop st l' = conciseLoop st l := by
  induction l generalizing st l' with
  | nil => cases h; rfl
  | cons p ps ih =>
    simp only [respellAll] at h
    rw [Except.bind_eq_ok'] at h
    obtain ⟨q, hq, h⟩ := h
    rw [Except.bind_eq_ok'] at h
    obtain ⟨qs, hqs, h⟩ := h
    cases h
    simp only [conciseLoop, conciseStep_respell st hq]
    cases conciseStep st p with
    | error _ => rfl
    | ok st1 => simp only [Except.ok_bind']; exact ih st1 hqs

end Fused
end Verif
