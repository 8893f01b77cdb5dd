/-
Helper lemmas about the fused channel spec model.
-/
import Verif.ChannelSpec
import Verif.PyLemmas

set_option linter.unusedSimpArgs false
set_option linter.unusedVariables false

namespace Verif

theorem Except.map_bind_ok {ε α β γ} (x : Except ε α) (f : α → Except ε β) (g : β → γ) :
    Except.map g (x >>= f) = (x >>= fun a => Except.map g (f a)) := by
  cases x <;> rfl

@[simp] theorem Except.ok_bind' {ε α β} (a : α) (f : α → Except ε β) :
    ((Except.ok a : Except ε α) >>= f) = f a := rfl

@[simp] theorem Except.error_bind' {ε α β} (e : ε) (f : α → Except ε β) :
    ((Except.error e : Except ε α) >>= f) = Except.error e := rfl

@[simp] theorem Except.map_ok' {ε α β} (a : α) (f : α → β) :
    Except.map f (Except.ok a : Except ε α) = Except.ok (f a) := rfl

@[simp] theorem Except.map_error' {ε α β} (e : ε) (f : α → β) :
    Except.map f (Except.error e : Except ε α) = Except.error e := rfl

theorem Except.bind_eq_ok' {ε α β} {x : Except ε α} {f : α → Except ε β} {b : β} :
    (x >>= f) = .ok b ↔ ∃ a, x = .ok a ∧ f a = .ok b := by
  cases x <;> simp

theorem Except.map_eq_ok' {ε α β} {x : Except ε α} {f : α → β} {b : β} :
    Except.map f x = .ok b ↔ ∃ a, x = .ok a ∧ f a = b := by
  cases x <;> simp

theorem alias_length_pos {v : Str} {l : List Str} (h : alias? v = some l) : 0 < l.length := by
  unfold alias? at h
  split at h
  · cases h; decide
  split at h
  · cases h; decide
  split at h
  · cases h; decide
  split at h
  · cases h; decide
  · cases h

theorem alias_outputs {v w : Str} {l : List Str} (h : alias? v = some l) (hw : w ∈ l) :
    needsNorm w = false ∧ '.' ∉ w ∧ '|' ∉ w := by
  unfold alias? at h
  have key : ∀ (l' : List Str), l' = l → (∀ w ∈ l', needsNorm w = false ∧ '.' ∉ w ∧ '|' ∉ w) →
      needsNorm w = false ∧ '.' ∉ w ∧ '|' ∉ w := by
    intro l' e H; subst e; exact H w hw
  split at h
  · exact key _ (Option.some.inj h) (by decide)
  split at h
  · exact key _ (Option.some.inj h) (by decide)
  split at h
  · exact key _ (Option.some.inj h) (by decide)
  split at h
  · exact key _ (Option.some.inj h) (by decide)
  · cases h

/-- No alias name contains a dot or a colon. -/
theorem alias_none_of_mem {v : Str} {c : Char} (hc : c ∈ v) (h : c = '.' ∨ c = ':') :
    alias? v = none := by
  unfold alias?
  have : ∀ w : Str, '.' ∉ w → ':' ∉ w → v ≠ w := by
    intro w h1 h2 e
    subst e
    rcases h with rfl | rfl
    · exact h1 hc
    · exact h2 hc
  rw [if_neg (this _ (by decide) (by decide)), if_neg (this _ (by decide) (by decide)),
    if_neg (this _ (by decide) (by decide)), if_neg (this _ (by decide) (by decide))]

theorem dot_mem_dotted (r : Str) (i : Int) : '.' ∈ dotted r i := by simp [dotted]

theorem colon_not_mem_dotted {r : Str} (h : ':' ∉ r) (i : Int) : ':' ∉ dotted r i := by
  simp [dotted, h, intStr_not_mem (i := i) (c := ':') (by simp)]

theorem needsNorm_dotted {r : Str} (h : ':' ∉ r) (i : Int) : needsNorm (dotted r i) = false := by
  simp [needsNorm, alias_none_of_mem (dot_mem_dotted r i) (.inl rfl), colon_not_mem_dotted h i]

theorem parseSlice_root {v r : Str} {a b s : Int} (h : parseSlice v = .ok (r, a, b, s)) :
    '.' ∉ r ∧ ':' ∉ r := by
  unfold parseSlice at h
  rw [Except.bind_eq_ok'] at h
  obtain ⟨⟨r', args⟩, _, h⟩ := h
  rw [Except.bind_eq_ok'] at h
  obtain ⟨⟨a', b', s'⟩, _, h⟩ := h
  simp only at h
  split at h
  · simp at h
  · split at h
    · simp at h
    · next hc => simp at h; simp at hc; rw [← h.1]; exact hc

theorem expandCode_needs {v : Str} {l : List Str} (h : expandCode v = .ok l) :
    ∀ w ∈ l, needsNorm w = false := by
  unfold expandCode at h
  split at h
  · next l' ha => cases h; exact fun w hw => (alias_outputs ha hw).1
  · next ha =>
    split at h
    · rw [Except.bind_eq_ok'] at h
      obtain ⟨⟨r, a, b, s⟩, hp, h⟩ := h
      simp only at h
      rw [Except.bind_eq_ok'] at h
      obtain ⟨idxs, _, h⟩ := h
      cases h
      intro w hw
      obtain ⟨i, _, rfl⟩ := List.mem_map.1 hw
      exact needsNorm_dotted (parseSlice_root hp).2 i
    · next hc => cases h; simpa [needsNorm, ha] using hc

theorem expandCode_of_not_needs {v : Str} (h : needsNorm v = false) : expandCode v = .ok [v] := by
  simp [needsNorm] at h
  simp [expandCode, h.1, h.2]

theorem normParts_append (a b : List Str) :
    normParts (a ++ b) = (do let x ← normParts a; let y ← normParts b; .ok (x ++ y)) := by
  induction a with
  | nil => simp [normParts]; cases normParts b <;> rfl
  | cons v vs ih =>
    simp only [List.cons_append, normParts, ih]
    cases expandCode v <;> simp

theorem normParts_of_not_needs {l : List Str} (h : ∀ v ∈ l, needsNorm v = false) :
    normParts l = .ok l := by
  induction l with
  | nil => rfl
  | cons v vs ih =>
    simp [normParts, expandCode_of_not_needs (h v (by simp)), ih (fun w hw => h w (by simp [hw]))]

theorem normParts_needs {l l' : List Str} (h : normParts l = .ok l') :
    ∀ w ∈ l', needsNorm w = false := by
  induction l generalizing l' with
  | nil => simp [normParts] at h; simp [h]
  | cons v vs ih =>
    simp only [normParts] at h
    rw [Except.bind_eq_ok'] at h
    obtain ⟨a, ha, h⟩ := h
    rw [Except.bind_eq_ok'] at h
    obtain ⟨b, hb, h⟩ := h
    cases h
    intro w hw
    rcases List.mem_append.1 hw with hw | hw
    · exact expandCode_needs ha w hw
    · exact ih hb w hw

namespace Fused

/-- The flag of a spec is only set if there is nothing to normalize. -/
def FlagSound (f : Fused) : Prop := f.isNorm = true → ∀ v ∈ f.parsed, needsNorm v = false

theorem normalize_eq {f : Fused} (hf : FlagSound f) :
    f.normalize = (normParts f.parsed).map (fun l => ⟨l, true⟩) := by
  unfold normalize
  split
  · next h =>
    rw [normParts_of_not_needs (hf h)]
    cases f; simp_all
  · split
    · cases normParts f.parsed <;> rfl
    · next h =>
      have h' : ∀ v ∈ f.parsed, needsNorm v = false := by simpa using h
      rw [normParts_of_not_needs h']
      rfl

theorem asList_eq {f : Fused} (hf : FlagSound f) : f.asList = normParts f.parsed := by
  unfold asList
  rw [normalize_eq hf]
  cases normParts f.parsed <;> rfl

theorem flagSound_false (l : List Str) : FlagSound ⟨l, false⟩ := by intro h; cases h

theorem asList_false (l : List Str) : asList ⟨l, false⟩ = normParts l := asList_eq (flagSound_false l)

theorem normalize_flagSound {f g : Fused} (hf : FlagSound f) (h : f.normalize = .ok g) :
    FlagSound g := by
  rw [normalize_eq hf] at h
  obtain ⟨l, hl, rfl⟩ := Except.map_eq_ok'.1 h
  exact fun _ => normParts_needs hl

theorem codeSize_eq (v : Str) : codeSize v = (expandCode v).map List.length := by
  unfold codeSize expandCode
  split
  · rfl
  · split
    · cases parseSlice v with
      | error e => rfl
      | ok p =>
        obtain ⟨r, a, b, s⟩ := p
        have := pyRange_length a b s
        simp only [Except.ok_bind']
        rw [← this]
        cases pyRange a b s <;> simp [Except.map]
    · rfl

theorem sizesLoop_sum (l : List Str) :
    (sizesLoop l).map List.sum = (normParts l).map List.length := by
  induction l with
  | nil => rfl
  | cons v vs ih =>
    simp only [sizesLoop, normParts, codeSize_eq]
    cases hv : expandCode v with
    | error e => rfl
    | ok a =>
      simp only [Except.map_ok', Except.ok_bind']
      cases hs : sizesLoop vs with
      | error e =>
        cases hn : normParts vs with
        | error e' => rw [hs, hn] at ih; exact ih
        | ok b => rw [hs, hn] at ih; cases ih
      | ok ns =>
        cases hn : normParts vs with
        | error e' => rw [hs, hn] at ih; cases ih
        | ok b =>
          rw [hs, hn] at ih
          simp only [Except.map_ok', Except.ok.injEq] at ih
          simp [ih]

/-! ### oset -/

theorem mem_foldl_osetAdd {α} [DecidableEq α] (l acc : List α) (x : α) :
    x ∈ l.foldl osetAdd acc ↔ x ∈ acc ∨ x ∈ l := by
  induction l generalizing acc with
  | nil => simp
  | cons y ys ih =>
    simp only [List.foldl_cons, ih, List.mem_cons]
    unfold osetAdd
    split
    · next h =>
      constructor
      · rintro (h1 | h1)
        · exact .inl h1
        · exact .inr (.inr h1)
      · rintro (h1 | h1 | h1)
        · exact .inl h1
        · subst h1; exact .inl h
        · exact .inr h1
    · simp [or_assoc]

theorem nodup_foldl_osetAdd {α} [DecidableEq α] (l acc : List α) (h : acc.Nodup) :
    (l.foldl osetAdd acc).Nodup := by
  induction l generalizing acc with
  | nil => exact h
  | cons y ys ih =>
    apply ih
    unfold osetAdd
    split
    · exact h
    · next hy =>
      rw [List.nodup_append]
      refine ⟨h, by simp, ?_⟩
      intro a ha b hb
      simp at hb
      subst hb
      intro e; subst e; exact hy ha

theorem mem_oset {α} [DecidableEq α] {l : List α} {x : α} : x ∈ oset l ↔ x ∈ l := by
  simp [oset, mem_foldl_osetAdd]

theorem nodup_oset {α} [DecidableEq α] (l : List α) : (oset l).Nodup :=
  nodup_foldl_osetAdd l [] List.nodup_nil

theorem foldl_osetAdd_of_nodup {α} [DecidableEq α] (l acc : List α) (h : (acc ++ l).Nodup) :
    l.foldl osetAdd acc = acc ++ l := by
  induction l generalizing acc with
  | nil => simp
  | cons y ys ih =>
    have hy : y ∉ acc := by
      rw [List.nodup_append] at h
      intro hy
      exact h.2.2 y hy y (by simp) rfl
    simp only [List.foldl_cons, osetAdd, if_neg hy]
    rw [ih]
    · simp
    · simpa using h

theorem oset_of_nodup {α} [DecidableEq α] {l : List α} (h : l.Nodup) : oset l = l := by
  simpa [oset] using foldl_osetAdd_of_nodup l [] (by simpa using h)

/-- Adding elements only appends. -/
theorem foldl_osetAdd_prefix {α} [DecidableEq α] (l acc : List α) : acc <+: l.foldl osetAdd acc := by
  induction l generalizing acc with
  | nil => exact List.prefix_rfl
  | cons y ys ih =>
    refine List.IsPrefix.trans ?_ (ih _)
    unfold osetAdd
    split
    · exact List.prefix_rfl
    · exact List.prefix_append _ _

theorem idxOf_append_left {α} [DecidableEq α] {l r : List α} {x : α} (h : x ∈ l) :
    (l ++ r).idxOf x = l.idxOf x := by
  simp [List.idxOf_append, h]

/-- Order by first occurrence. -/
theorem pairwise_foldl_osetAdd {α} [DecidableEq α] (l acc pre : List α)
    (hmem : ∀ x, x ∈ acc ↔ x ∈ pre)
    (h : acc.Pairwise (fun x y => pre.idxOf x < pre.idxOf y)) :
    (l.foldl osetAdd acc).Pairwise (fun x y => (pre ++ l).idxOf x < (pre ++ l).idxOf y) := by
  induction l generalizing acc pre with
  | nil => simpa using h
  | cons y ys ih =>
    have e : pre ++ y :: ys = (pre ++ [y]) ++ ys := by simp
    rw [List.foldl_cons, e]
    have h' : acc.Pairwise (fun x y' => (pre ++ [y]).idxOf x < (pre ++ [y]).idxOf y') := by
      refine List.Pairwise.imp_of_mem ?_ h
      intro a b ha hb hab
      rw [idxOf_append_left ((hmem a).1 ha), idxOf_append_left ((hmem b).1 hb)]
      exact hab
    apply ih
    · intro x
      unfold osetAdd
      split
      · next hy =>
        constructor
        · intro hx; exact List.mem_append_left _ ((hmem x).1 hx)
        · intro hx
          rcases List.mem_append.1 hx with hx | hx
          · exact (hmem x).2 hx
          · simp at hx; subst hx; exact hy
      · simp [hmem]
    · unfold osetAdd
      split
      · exact h'
      · next hy =>
        rw [List.pairwise_append]
        refine ⟨h', by simp, ?_⟩
        intro a ha b hb
        simp at hb
        subst hb
        have hb' : b ∉ pre := fun hb => hy ((hmem b).2 hb)
        rw [idxOf_append_left ((hmem a).1 ha), List.idxOf_append]
        simp [hb']
        have := List.idxOf_lt_length_iff.2 ((hmem a).1 ha)
        omega

theorem pairwise_oset {α} [DecidableEq α] (l : List α) :
    (oset l).Pairwise (fun x y => l.idxOf x < l.idxOf y) := by
  simpa [oset] using pairwise_foldl_osetAdd l [] [] (by simp) List.Pairwise.nil

theorem oset_append {α} [DecidableEq α] (a b : List α) :
    oset (a ++ b) = b.foldl osetAdd (oset a) := by
  simp [oset, List.foldl_append]

end Fused

end Verif
