/-
Property theorems about `SensorChanSpec` (C17, C18, C43).
-/
import Verif.SensorChanLemmas
import Verif.Props.Fused
import Verif.Props.Encode

set_option linter.unusedSimpArgs false
set_option linter.unusedVariables false

namespace Verif.Props
open Verif Verif.SC Fused Chan

/-- Specification: the (sensor, ordered channel list) pairs a spec denotes; aliases and slices are
expanded. -/
def Denotes (spec : Str) (sensor : Str) (chans : List Str) : Prop :=
  ∃ ss, SC.streams spec = .ok ss ∧ ∃ f ∈ ss, f.sensor = sensor ∧ f.chans.asList = .ok chans

theorem streams_eq_ok {spec : Str} {ss : List FSC} :
    SC.streams spec = .ok ss ↔ ∃ ns, nodes spec = .ok ns ∧ ss = ns.map (fun n => ⟨n.1, ⟨n.2, false⟩⟩) := by
  unfold SC.streams
  rw [Except.map_eq_ok']
  constructor
  · rintro ⟨ns, h, e⟩; exact ⟨ns, h, e.symm⟩
  · rintro ⟨ns, h, e⟩; exact ⟨ns, h, e.symm⟩

/-! ### the text of one channel group -/

/-- A normalized code produced by the parser. -/
def NCode (c : Str) : Prop :=
  (isIden c = true ∧ alias? c = none) ∨ ∃ r i, isIden r = true ∧ 0 ≤ i ∧ c = dotted r i

theorem NCode.needs {c : Str} (h : NCode c) : needsNorm c = false := by
  rcases h with ⟨h1, h2⟩ | ⟨r, i, hr, hi, rfl⟩
  · simp [needsNorm, h2, isIden_not_mem h1 (c := ':') (by simp [special])]
  · exact needsNorm_dotted (isIden_not_mem hr (by simp [special])) i

theorem alias_iden {v : Str} {l : List Str} (h : alias? v = some l) : ∀ w ∈ l, NCode w := by
  have hn := fun w hw => alias_outputs (w := w) h hw
  unfold alias? at h
  split at h
  · cases h; intro w hw; simp at hw; rcases hw with rfl | rfl | rfl <;> exact .inl ⟨by decide, by decide⟩
  · split at h
    · cases h; intro w hw; simp at hw
      rcases hw with rfl | rfl | rfl | rfl <;> exact .inl ⟨by decide, by decide⟩
    · split at h
      · cases h; intro w hw; simp at hw; rcases hw with rfl | rfl <;> exact .inl ⟨by decide, by decide⟩
      · split at h
        · cases h; intro w hw; simp at hw; rcases hw with rfl | rfl <;> exact .inl ⟨by decide, by decide⟩
        · cases h

theorem expand_canonical {c : Str} (h : CodeOk c) (hc : CanonicalCode c) :
    ∃ l, expandCode c = .ok l ∧ l ≠ [] ∧ ∀ w ∈ l, NCode w := by
  rcases h with h | ⟨r, a, hr, ha, rfl⟩
  · unfold expandCode
    cases hal : alias? c with
    | some l =>
      refine ⟨l, rfl, ?_, alias_iden hal⟩
      have := alias_length_pos hal
      intro e; rw [e] at this; exact absurd this (by simp)
    | none =>
      simp only
      rw [if_neg (isIden_not_mem h (by simp [special]))]
      exact ⟨[c], rfl, by simp, fun w hw => by rw [List.mem_singleton] at hw; subst hw; exact .inl ⟨h, hal⟩⟩
  · have hn : CodeOk (r ++ '.' :: a) := .inr ⟨r, a, hr, ha, rfl⟩
    have hdot : '.' ∈ r ++ '.' :: a := by simp
    have hcol : ':' ∉ r ++ '.' :: a := codeOk_not_mem hn (by simp [special]) (by decide)
    refine ⟨[r ++ '.' :: a], ?_, by simp, ?_⟩
    · apply expandCode_of_not_needs
      simp [needsNorm, hcol, alias_none_of_mem hdot (.inl rfl)]
    · intro w hw
      rw [List.mem_singleton] at hw; subst hw
      rcases hc with hc | ⟨r', i, hr', e⟩
      · exact absurd hdot hc
      · have h1 := splitOnce_append (c := '.') (t := a) (isIden_not_mem hr (c := '.') (by simp [special]))
        rw [e, dotted, splitOnce_append hr'] at h1
        simp only [Option.some.injEq, Prod.mk.injEq] at h1
        obtain ⟨rfl, rfl⟩ := h1
        exact .inr ⟨r', i, hr, intStr_isInt_nonneg ha, e⟩

theorem normParts_canonical {cs : List Str} (h : ∀ c ∈ cs, CodeOk c) (hc : ∀ c ∈ cs, CanonicalCode c) :
    ∃ l, normParts cs = .ok l ∧ (l = [] ↔ cs = []) ∧ ∀ w ∈ l, NCode w := by
  induction cs with
  | nil => exact ⟨[], rfl, by simp, by simp⟩
  | cons c cs ih =>
    obtain ⟨l1, h1, h2, h3⟩ := expand_canonical (h c (by simp)) (hc c (by simp))
    obtain ⟨l2, h4, _, h5⟩ := ih (fun x hx => h x (by simp [hx])) (fun x hx => hc x (by simp [hx]))
    refine ⟨l1 ++ l2, by simp [normParts, h1, h4], by simp [h2], ?_⟩
    intro w hw
    rcases List.mem_append.1 hw with hw | hw
    · exact h3 w hw
    · exact h5 w hw

/-- A part written by `concise`. -/
def PartOk (p : Str) : Prop :=
  (isIden p = true ∧ alias? p = none) ∨
    ∃ r a b, isIden r = true ∧ 0 ≤ a ∧ a < b ∧ p = formatReady r a b

def StOk (st : CState) : Prop :=
  (∀ p ∈ st.parts, PartOk p) ∧ ∀ r a b, st.acc = some (r, a, b) → isIden r = true ∧ 0 ≤ a ∧ a < b

theorem conciseStep_parts {st st' : CState} {p : Str} (hp : NCode p) (hs : StOk st)
    (h : conciseStep st p = .ok st') : StOk st' := by
  have hflush : ∀ r a b, st.acc = some (r, a, b) → PartOk (formatReady r a b) := by
    intro r a b e
    have := hs.2 r a b e
    exact .inr ⟨r, a, b, this.1, this.2.1, this.2.2, rfl⟩
  have happ : ∀ (qs : List Str), (∀ q ∈ qs, PartOk q) → ∀ q ∈ st.parts ++ qs, PartOk q := by
    intro qs hq q hm
    rcases List.mem_append.1 hm with hm | hm
    · exact hs.1 q hm
    · exact hq q hm
  unfold conciseStep at h
  rcases hp with ⟨h1, h2⟩ | ⟨r0, i, hr, hi, rfl⟩
  · rw [if_neg (isIden_not_mem h1 (by simp [special]))] at h
    split at h
    · next r a b hacc =>
      cases h
      refine ⟨happ _ ?_, by simp⟩
      intro q hq
      simp only [List.mem_cons, List.not_mem_nil, or_false] at hq
      rcases hq with rfl | rfl
      · exact hflush _ _ _ hacc
      · exact .inl ⟨h1, h2⟩
    · cases h
      refine ⟨happ _ ?_, by simp⟩
      intro q hq
      rw [List.mem_singleton] at hq; subst hq; exact .inl ⟨h1, h2⟩
  · rw [if_pos (dot_mem_dotted _ _), splitTwo_dotted (isIden_not_mem hr (by simp [special]))] at h
    simp only [Except.ok_bind', pyInt_intStr] at h
    have hnew : ∀ r a b, some (r0, i, i + 1) = some (r, a, b) → isIden r = true ∧ 0 ≤ a ∧ a < b := by
      intro r a b e
      simp only [Option.some.injEq, Prod.mk.injEq] at e
      obtain ⟨rfl, rfl, rfl⟩ := e
      exact ⟨hr, hi, by omega⟩
    split at h
    · next r a b hacc =>
      have hold := hs.2 r a b hacc
      have hone : ∀ q ∈ [formatReady r a b], PartOk q := by
        intro q hq; rw [List.mem_singleton] at hq; subst hq; exact hflush _ _ _ hacc
      split at h
      · split at h
        · next hib =>
          cases h
          refine ⟨hs.1, ?_⟩
          intro r' a' b' e
          simp only [Option.some.injEq, Prod.mk.injEq] at e
          obtain ⟨rfl, rfl, rfl⟩ := e
          exact ⟨hold.1, hold.2.1, by omega⟩
        · cases h; exact ⟨happ _ hone, hnew⟩
      · cases h; exact ⟨happ _ hone, hnew⟩
    · cases h; exact ⟨hs.1, hnew⟩

theorem conciseLoop_parts {st st' : CState} {l : List Str} (hl : ∀ p ∈ l, NCode p) (hs : StOk st)
    (h : conciseLoop st l = .ok st') : StOk st' := by
  induction l generalizing st with
  | nil => cases h; exact hs
  | cons p ps ih =>
    simp only [conciseLoop] at h
    rw [Except.bind_eq_ok'] at h
    obtain ⟨st1, h1, h⟩ := h
    exact ih (fun q hq => hl q (by simp [hq])) (conciseStep_parts (hl p (by simp)) hs h1) h

theorem flush_parts {st : CState} (hs : StOk st) : ∀ p ∈ st.flush, PartOk p := by
  unfold CState.flush
  split
  · next r a b hacc =>
    intro p hp
    rcases List.mem_append.1 hp with hp | hp
    · exact hs.1 p hp
    · rw [List.mem_singleton] at hp; subst hp
      have := hs.2 r a b hacc
      exact .inr ⟨r, a, b, this.1, this.2.1, this.2.2, rfl⟩
  · exact hs.1

theorem PartOk.code {p : Str} (h : PartOk p) : codeOf p = expandCode p := by
  rcases h with ⟨h1, h2⟩ | ⟨r, a, b, hr, ha, hab, rfl⟩
  · rw [codeOf_iden h1, expandCode_of_not_needs]
    simp [needsNorm, h2, isIden_not_mem h1 (c := ':') (by simp [special])]
  · rw [codeOf_formatReady hr ha hab, expandCode_formatReady
      (isIden_not_mem hr (by simp [special])) (isIden_not_mem hr (by simp [special])) hab]

theorem PartOk.start {p : Str} (h : PartOk p) : ∃ x xs, p = x :: xs ∧ idenStart x = true := by
  rcases h with ⟨h1, h2⟩ | ⟨r, a, b, hr, ha, hab, rfl⟩
  · exact isIden_cons h1
  · obtain ⟨x, xs, rfl, hx⟩ := isIden_cons hr
    unfold formatReady
    split
    · exact ⟨_, _, rfl, hx⟩
    · split
      · exact ⟨_, _, rfl, hx⟩
      · exact ⟨_, _, rfl, hx⟩

theorem PartOk.bar {p : Str} (h : PartOk p) : '|' ∉ p := by
  rcases h with ⟨h1, h2⟩ | ⟨r, a, b, hr, ha, hab, rfl⟩
  · exact isIden_not_mem h1 (by simp [special])
  · have h0 : '|' ∉ r := isIden_not_mem hr (by simp [special])
    have h1 : '|' ∉ intStr a := intStr_not_mem (by simp)
    have h2 : '|' ∉ intStr b := intStr_not_mem (by simp)
    unfold formatReady
    split
    · simp [h0, h1]
    · split <;> simp [h0, h1, h2]

theorem flatMapM_eq_normParts {ps : List Str} (h : ∀ p ∈ ps, codeOf p = expandCode p) :
    flatMapM codeOf ps = normParts ps := by
  induction ps with
  | nil => rfl
  | cons p ps ih =>
    simp only [flatMapM, normParts, h p (by simp), ih (fun q hq => h q (by simp [hq]))]

/-- Meaning of the text of a channel group: empty, or the codes it parses to. -/
def TextMeans (t : Str) (l : List Str) : Prop :=
  (t = [] ∧ l = []) ∨ (TextOk t ∧ fusedOf t = .ok l)

theorem conciseChan_means {cs : List Str} (h : ∀ c ∈ cs, CodeOk c) (hc : ∀ c ∈ cs, CanonicalCode c) :
    ∃ t l, conciseChan cs = .ok t ∧ normParts cs = .ok l ∧ TextMeans t l ∧ (t = [] ↔ cs = []) ∧
      ∀ w ∈ l, NCode w := by
  obtain ⟨l, hl, hnil, hN⟩ := normParts_canonical h hc
  have hasl : (⟨cs, false⟩ : Fused).asList = .ok l := by rw [asList_false]; exact hl
  have hcan : ∀ c ∈ l, CanonicalCode c := by
    intro c hcl
    rcases hN c hcl with ⟨h1, _⟩ | ⟨r, i, hr, hi, rfl⟩
    · exact .inl (isIden_not_mem h1 (by simp [special]))
    · exact .inr ⟨r, i, isIden_not_mem hr (by simp [special]), rfl⟩
  have hnorm : (⟨cs, false⟩ : Fused).normalize = .ok ⟨l, true⟩ := by
    rw [normalize_eq (flagSound_false cs), hl]; rfl
  unfold conciseChan Fused.concise
  rw [hnorm]
  simp only [Except.ok_bind']
  cases hst : conciseLoop ⟨[], none⟩ l with
  | error e =>
    have := (conciseLoop_error _ _ _).1 hst
    rw [respellAll_canonical hcan] at this
    cases this
  | ok st =>
    obtain ⟨hok, qs, done, hqs, hd, he⟩ :=
      conciseLoop_spec (st := ⟨[], none⟩) (done := []) (normParts_needs hl) trivial rfl hst
    rw [respellAll_canonical hcan] at hqs
    cases hqs
    have hfl : normParts st.flush = .ok l := by
      rw [normParts_flush hok hd, he]; simp [accCodes]
    have hparts : ∀ p ∈ st.flush, PartOk p :=
      flush_parts (conciseLoop_parts hN ⟨by simp, by simp⟩ hst)
    refine ⟨joinWith '|' st.flush, l, rfl, hl, ?_, ?_, hN⟩
    · by_cases hf : st.flush = []
      · rw [hf] at hfl ⊢
        cases hfl
        exact .inl ⟨rfl, rfl⟩
      · right
        have hfu : fusedOf (joinWith '|' st.flush) = .ok l := by
          unfold fusedOf
          rw [splitOn_join hf (fun p hp => (hparts p hp).bar),
            flatMapM_eq_normParts (fun p hp => (hparts p hp).code), hfl]
        exact ⟨⟨joinWith_start hf (fun p hp => (hparts p hp).start), (fusedOf_ok hfu).2⟩, hfu⟩
    · constructor
      · intro e
        by_cases hf : st.flush = []
        · rw [hf] at hfl; cases hfl; exact hnil.1 rfl
        · obtain ⟨x, xs, hx, _⟩ := joinWith_start (s := '|') hf (fun p hp => (hparts p hp).start)
          rw [hx] at e; cases e
      · intro e
        have : l = [] := hnil.2 e
        subst this
        cases hst
        rfl

/-! ### the two grouping passes -/

theorem mem_groupItems {κ α : Type} [DecidableEq κ] {l : List (κ × α)} {g : κ × List α}
    (h : g ∈ groupItems l) : g.2 ≠ [] ∧ ∀ v, v ∈ g.2 ↔ (g.1, v) ∈ l := by
  unfold groupItems at h
  obtain ⟨k, hk, rfl⟩ := List.mem_map.1 h
  rw [mem_oset] at hk
  constructor
  · obtain ⟨p, hp, rfl⟩ := List.mem_map.1 hk
    intro e
    have : p.2 ∈ (l.filter (fun q => decide (q.1 = p.1))).map Prod.snd :=
      List.mem_map.2 ⟨p, List.mem_filter.2 ⟨hp, by simp⟩, rfl⟩
    simp only at e
    rw [e] at this; cases this
  · intro v
    simp only [List.mem_map, List.mem_filter, decide_eq_true_eq]
    constructor
    · rintro ⟨p, ⟨hp, rfl⟩, rfl⟩; exact hp
    · intro hp; exact ⟨(k, v), ⟨hp, rfl⟩, rfl⟩

theorem groupItems_mem {κ α : Type} [DecidableEq κ] {l : List (κ × α)} {k : κ} {v : α}
    (h : (k, v) ∈ l) : ∃ g ∈ groupItems l, g.1 = k ∧ v ∈ g.2 := by
  have hk : k ∈ oset (l.map Prod.fst) := mem_oset.2 (List.mem_map.2 ⟨(k, v), h, rfl⟩)
  refine ⟨_, List.mem_map.2 ⟨k, hk, rfl⟩, rfl, ?_⟩
  exact List.mem_map.2 ⟨(k, v), List.mem_filter.2 ⟨h, by simp⟩, rfl⟩

theorem groupItems_keys {κ α : Type} [DecidableEq κ] (l : List (κ × α)) :
    ((groupItems l).map Prod.fst).Nodup := by
  unfold groupItems
  rw [List.map_map]
  have : (Prod.fst ∘ fun k => (k, (l.filter (fun p => decide (p.1 = k))).map Prod.snd)) = id := rfl
  rw [this, List.map_id]
  exact nodup_oset _

theorem sensePart_ok {ss : List Str} (hne : ss ≠ []) (h : ∀ s ∈ ss, isIden s = true) :
    SenseOk (sensePart ss) ∧ ∀ s, s ∈ senses (sensePart ss) ↔ s ∈ ss := by
  have hmem : ∀ s, s ∈ sortStr (oset ss) ↔ s ∈ ss := fun s => by rw [mem_sortStr, mem_oset]
  have hsn : sortStr (oset ss) ≠ [] := by
    intro e
    cases ss with
    | nil => exact hne rfl
    | cons a as =>
      have := (hmem a).2 (by simp)
      rw [e] at this; cases this
  have hid : ∀ s ∈ sortStr (oset ss), isIden s = true := fun s hs => h s ((hmem s).1 hs)
  unfold sensePart
  simp only
  split
  · refine ⟨.inr ⟨_, hsn, hid, rfl⟩, ?_⟩
    intro s
    rw [senses_paren hsn hid, hmem]
  · next hlen =>
    cases ss with
    | nil => exact absurd rfl hne
    | cons a as =>
      cases as with
      | cons b bs => simp at hlen
      | nil =>
        have e : sortStr (oset [a]) = [a] := by
          simp [oset, osetAdd, sortStr, insertStr]
        rw [e]
        simp only [joinWith]
        have ha := h a (by simp)
        exact ⟨.inl ha, fun s => by rw [senses_iden ha]⟩

theorem TextMeans.functional {t : Str} {l l' : List Str} (h : TextMeans t l) (h' : TextMeans t l') :
    l = l' := by
  rcases h with ⟨rfl, rfl⟩ | ⟨h1, h2⟩
  · rcases h' with ⟨_, rfl⟩ | ⟨⟨⟨c, cs, e, _⟩, _⟩, _⟩
    · rfl
    · cases e
  · rcases h' with ⟨rfl, _⟩ | ⟨_, h3⟩
    · obtain ⟨⟨c, cs, e, _⟩, _⟩ := h1; cases e
    · rw [h2] at h3; cases h3; rfl

/-- Parsing one printed group. -/
theorem parseItem_chanPart {p : Str} {ts : List Str} (hp : SenseOk p) (hne : ts ≠ [])
    (ht : ∀ t ∈ ts, ∃ l, TextMeans t l) (hcase : ts = [[]] ∨ ∀ t ∈ ts, t ≠ []) :
    ∃ r, parseItem (chanPart p ts) = .ok (product (senses p) r) ∧
      ∀ l, l ∈ r ↔ ∃ t ∈ ts, TextMeans t l := by
  unfold chanPart
  simp only
  rcases hcase with rfl | hcase
  · refine ⟨[[]], ?_, ?_⟩
    · simpa [joinWith] using parseItem_sense (rhs := []) (r := [[]]) hp rfl rfl
    · intro l
      simp only [List.mem_singleton, exists_eq_left]
      constructor
      · rintro rfl; exact .inl ⟨rfl, rfl⟩
      · rintro (⟨_, rfl⟩ | ⟨⟨⟨c, cs, e, _⟩, _⟩, _⟩)
        · rfl
        · cases e
  · have htx : ∀ t ∈ ts, TextOk t ∧ ∃ l, fusedOf t = .ok l := by
      intro t h
      obtain ⟨l, hl⟩ := ht t h
      rcases hl with ⟨e, _⟩ | ⟨h1, h2⟩
      · exact absurd e (hcase t h)
      · exact ⟨h1, l, h2⟩
    obtain ⟨r, hr⟩ := mapAll_exists (f := fusedOf) (l := ts) (fun t h => (htx t h).2)
    have hmem : ∀ l, l ∈ r ↔ ∃ t ∈ ts, TextMeans t l := by
      intro l
      have := mapAll_ok_mem hr
      constructor
      · intro hl
        obtain ⟨t, h1, h2⟩ := this.2 l hl
        exact ⟨t, h1, .inr ⟨(htx t h1).1, h2⟩⟩
      · rintro ⟨t, h1, h2⟩
        obtain ⟨y, hy, e⟩ := this.1 t h1
        have : TextMeans t y := .inr ⟨(htx t h1).1, e⟩
        rw [h2.functional this]; exact hy
    refine ⟨r, ?_, hmem⟩
    split
    · exact parseItem_sense hp (parseRhs_seq hne (fun t h => (htx t h).1) hr) rfl
    · next hlen =>
      cases ts with
      | nil => exact absurd rfl hne
      | cons t ts =>
        cases ts with
        | cons t' ts => simp at hlen
        | nil =>
          obtain ⟨h1, l, h2⟩ := htx t (by simp)
          have := parseRhs_text h1 h2
          simp only [mapAll, h2, Except.ok_bind', Except.ok.injEq] at hr
          subst hr
          exact parseItem_sense hp this.1 this.2

/-- `concise()`: the text, its parts and what it denotes. -/
theorem concise_main {spec : Str} {ss : List FSC} (hss : SC.streams spec = .ok ss)
    (hcan : ∀ f ∈ ss, ∀ c ∈ f.chans.parsed, CanonicalCode c)
    (hemp : (∀ f ∈ ss, f.chans.parsed ≠ []) ∨ (∀ f ∈ ss, f.chans.parsed = [])) :
    ∃ t, SC.concise spec = .ok t ∧ (∃ flat, splitTop 0 t = conciseParts flat) ∧
      ∀ sensor chans, Denotes t sensor chans ↔ Denotes spec sensor chans := by
  obtain ⟨ns, hns, rfl⟩ := streams_eq_ok.1 hss
  have hok := (nodes_ok hns).1
  have hne := nodes_nonempty hns
  have hcan' : ∀ n ∈ ns, ∀ c ∈ n.2, CanonicalCode c := by
    intro n hn
    exact hcan ⟨n.1, ⟨n.2, false⟩⟩ (List.mem_map.2 ⟨n, hn, rfl⟩)
  have hemp' : (∀ n ∈ ns, n.2 ≠ []) ∨ (∀ n ∈ ns, n.2 = []) := by
    rcases hemp with h | h
    · exact .inl (fun n hn => h ⟨n.1, ⟨n.2, false⟩⟩ (List.mem_map.2 ⟨n, hn, rfl⟩))
    · exact .inr (fun n hn => h ⟨n.1, ⟨n.2, false⟩⟩ (List.mem_map.2 ⟨n, hn, rfl⟩))
  -- the flat list
  have hflat : ∀ ns : List (Str × List Str), (∀ n ∈ ns, NodeOk n) → (∀ n ∈ ns, ∀ c ∈ n.2, CanonicalCode c) →
      ∃ flat, conciseNodes ns = .ok flat ∧
        (∀ n ∈ ns, ∃ t l, (t, n.1) ∈ flat ∧ TextMeans t l ∧ normParts n.2 = .ok l) ∧
        (∀ p ∈ flat, ∃ n ∈ ns, ∃ l, n.1 = p.2 ∧ TextMeans p.1 l ∧ normParts n.2 = .ok l ∧
          (p.1 = [] ↔ n.2 = []) ∧ ∀ w ∈ l, NCode w) := by
    intro ns
    induction ns with
    | nil => intro _ _; exact ⟨[], rfl, by simp, by simp⟩
    | cons n ns ih =>
      intro h1 h2
      obtain ⟨t, l, hc, hl, hm, hnil, hN⟩ := conciseChan_means (h1 n (by simp)).2 (h2 n (by simp))
      obtain ⟨flat, hf, ha, hb⟩ := ih (fun x hx => h1 x (by simp [hx])) (fun x hx => h2 x (by simp [hx]))
      refine ⟨(t, n.1) :: flat, by simp [conciseNodes, hc, hf], ?_, ?_⟩
      · intro x hx
        rcases List.mem_cons.1 hx with rfl | hx
        · exact ⟨t, l, by simp, hm, hl⟩
        · obtain ⟨t', l', h3, h4⟩ := ha x hx
          exact ⟨t', l', by simp [h3], h4⟩
      · intro p hp
        rcases List.mem_cons.1 hp with rfl | hp
        · exact ⟨n, by simp, l, rfl, hm, hl, hnil, hN⟩
        · obtain ⟨x, hx, l', h3⟩ := hb p hp
          exact ⟨x, by simp [hx], l', h3⟩
  obtain ⟨flat, hf, hfa, hfb⟩ := hflat ns hok hcan'
  -- first pass
  have hp1 : ∀ q ∈ pass1 flat, ∃ A, A ≠ [] ∧ q.1 = sensePart A ∧ (∀ s, s ∈ A ↔ (q.2, s) ∈ flat) ∧
      SenseOk q.1 ∧ ∀ s, s ∈ senses q.1 ↔ (q.2, s) ∈ flat := by
    intro q hq
    obtain ⟨g, hg, rfl⟩ := List.mem_map.1 hq
    obtain ⟨h1, h2⟩ := mem_groupItems hg
    have hid : ∀ s ∈ g.2, isIden s = true := by
      intro s hs
      obtain ⟨n, hn, l, e, _⟩ := hfb _ ((h2 s).1 hs)
      have h' := (hok n hn).1
      rw [e] at h'; exact h'
    obtain ⟨h3, h4⟩ := sensePart_ok h1 hid
    exact ⟨g.2, h1, rfl, h2, h3, fun s => (h4 s).trans (h2 s)⟩
  have hp1' : ∀ t s, (t, s) ∈ flat → ∃ q ∈ pass1 flat, q.2 = t := by
    intro t s h
    obtain ⟨g, hg, rfl, _⟩ := groupItems_mem h
    exact ⟨_, List.mem_map.2 ⟨g, hg, rfl⟩, rfl⟩
  have hp1n : ((pass1 flat).map Prod.snd).Nodup := by
    unfold pass1
    rw [List.map_map]
    exact groupItems_keys flat
  have hflatne : flat ≠ [] := by
    cases ns with
    | nil => exact absurd rfl hne
    | cons n ns =>
      obtain ⟨t, l, h, _⟩ := hfa n (by simp)
      intro e; rw [e] at h; cases h
  -- second pass
  have hg2 : ∀ g ∈ groupItems (pass1 flat), ∃ r, parseItem (chanPart g.1 g.2) = .ok (product (senses g.1) r) ∧
      (∀ l, l ∈ r ↔ ∃ t ∈ g.2, TextMeans t l) := by
    intro g hg
    obtain ⟨h1, h2⟩ := mem_groupItems hg
    obtain ⟨t0, ht0⟩ : ∃ t0, t0 ∈ g.2 := by
      cases h : g.2 with
      | nil => exact absurd h h1
      | cons a as => exact ⟨a, by simp⟩
    obtain ⟨_, _, _, _, hsok, _⟩ := hp1 _ ((h2 t0).1 ht0)
    have hmean : ∀ t ∈ g.2, ∃ n ∈ ns, ∃ l, TextMeans t l ∧ (t = [] ↔ n.2 = []) := by
      intro t ht
      obtain ⟨A, hA, _, hAm, _⟩ := hp1 _ ((h2 t).1 ht)
      cases A with
      | nil => exact absurd rfl hA
      | cons s A =>
        obtain ⟨n, hn, l, _, hm, _, hnil, _⟩ := hfb _ ((hAm s).1 (by simp))
        exact ⟨n, hn, l, hm, hnil⟩
    apply parseItem_chanPart hsok h1
    · intro t ht
      obtain ⟨n, _, l, hm, _⟩ := hmean t ht
      exact ⟨l, hm⟩
    · rcases hemp' with he | he
      · right
        intro t ht e
        obtain ⟨n, hn, l, _, hnil⟩ := hmean t ht
        exact he n hn (hnil.1 e)
      · left
        have hall : ∀ t ∈ g.2, t = [] := by
          intro t ht
          obtain ⟨n, hn, l, _, hnil⟩ := hmean t ht
          exact hnil.2 (he n hn)
        have hnd : g.2.Nodup := by
          unfold groupItems at hg
          obtain ⟨k, _, rfl⟩ := List.mem_map.1 hg
          have : List.Sublist (((pass1 flat).filter (fun p => decide (p.1 = k))).map Prod.snd)
              ((pass1 flat).map Prod.snd) := List.Sublist.map _ List.filter_sublist
          exact this.nodup hp1n
        generalize g.2 = ts at *
        cases ts with
        | nil => cases ht0
        | cons a as =>
          cases as with
          | nil => rw [hall a (by simp)]
          | cons b bs =>
            exfalso
            rw [List.nodup_cons] at hnd
            apply hnd.1
            rw [hall a (by simp), hall b (by simp)]
            simp
  -- parse of the whole text
  let parts := conciseParts flat
  have hparts : ∀ w, w ∈ parts ↔ ∃ g ∈ groupItems (pass1 flat), w = chanPart g.1 g.2 := by
    intro w
    show w ∈ sortStr _ ↔ _
    rw [mem_sortStr, List.mem_map]
    constructor
    · rintro ⟨g, hg, rfl⟩; exact ⟨g, hg, rfl⟩
    · rintro ⟨g, hg, rfl⟩; exact ⟨g, hg, rfl⟩
  have hpne : parts ≠ [] := by
    cases hfl : flat with
    | nil => exact absurd hfl hflatne
    | cons p ps =>
      obtain ⟨q, hq, _⟩ := hp1' p.1 p.2 (by rw [hfl]; simp)
      obtain ⟨g, hg, _⟩ := groupItems_mem (k := q.1) (v := q.2) hq
      have := (hparts _).2 ⟨g, hg, rfl⟩
      intro e; rw [e] at this; cases this
  have hsplit : splitTop 0 (joinWith ',' parts) = parts := by
    apply splitTop_join hpne
    intro w hw
    obtain ⟨g, hg, rfl⟩ := (hparts w).1 hw
    obtain ⟨r, hr, _⟩ := hg2 g hg
    exact (parseItem_ok hr).2
  obtain ⟨ns', hns'⟩ : ∃ ns', flatMapM parseItem parts = .ok ns' := by
    have : ∀ ps : List Str, (∀ w ∈ ps, w ∈ parts) → ∃ r, flatMapM parseItem ps = .ok r := by
      intro ps
      induction ps with
      | nil => intro _; exact ⟨[], rfl⟩
      | cons w ws ih =>
        intro h
        obtain ⟨r, hr⟩ := ih (fun x hx => h x (by simp [hx]))
        obtain ⟨g, hg, rfl⟩ := (hparts w).1 (h w (by simp))
        obtain ⟨r', hr', _⟩ := hg2 g hg
        exact ⟨product (senses g.1) r' ++ r, by simp only [flatMapM, hr', hr, Except.ok_bind']⟩
    exact this parts (fun _ h => h)
  have hnodes' : nodes (joinWith ',' parts) = .ok ns' := by
    unfold nodes; rw [hsplit]; exact hns'
  refine ⟨joinWith ',' parts, by simp [SC.concise, hns, hf, parts], ⟨flat, hsplit⟩, ?_⟩
  -- the pairs
  have hpair : ∀ s l, (s, l) ∈ ns' ↔ ∃ t, (t, s) ∈ flat ∧ TextMeans t l := by
    intro s l
    constructor
    · intro h
      obtain ⟨w, hw, y, hy, hm⟩ := flatMapM_mem_ok hns' _ h
      obtain ⟨g, hg, rfl⟩ := (hparts w).1 hw
      obtain ⟨r, hr, hrm⟩ := hg2 g hg
      rw [hr] at hy
      cases hy
      unfold product at hm
      obtain ⟨a, ha, hm⟩ := List.mem_flatMap.1 hm
      obtain ⟨b, hb, e⟩ := List.mem_map.1 hm
      simp only [Prod.mk.injEq] at e
      obtain ⟨rfl, rfl⟩ := e
      obtain ⟨t, ht, htm⟩ := (hrm b).1 hb
      obtain ⟨_, _, _, _, _, h5⟩ := hp1 _ (((mem_groupItems hg).2 t).1 ht)
      exact ⟨t, (h5 a).1 ha, htm⟩
    · rintro ⟨t, ht, htm⟩
      obtain ⟨q, hq, rfl⟩ := hp1' t s ht
      obtain ⟨g, hg, e1, e2⟩ := groupItems_mem (k := q.1) (v := q.2) hq
      obtain ⟨r, hr, hrm⟩ := hg2 g hg
      obtain ⟨y, hy, hz⟩ := flatMapM_ok_mem hns' _ ((hparts _).2 ⟨g, hg, rfl⟩)
      rw [hr] at hy
      cases hy
      apply hz
      unfold product
      refine List.mem_flatMap.2 ⟨s, ?_, List.mem_map.2 ⟨l, (hrm l).2 ⟨q.2, e2, htm⟩, rfl⟩⟩
      obtain ⟨_, _, _, _, _, h5⟩ := hp1 q hq
      rw [e1]; exact (h5 s).2 ht
  intro sensor chans
  constructor
  · rintro ⟨ss', h1, f, hf', rfl, h3⟩
    obtain ⟨m, hm, rfl⟩ := streams_eq_ok.1 h1
    rw [hnodes'] at hm
    cases hm
    obtain ⟨n, hn, rfl⟩ := List.mem_map.1 hf'
    obtain ⟨t, ht, htm⟩ := (hpair n.1 n.2).1 hn
    obtain ⟨n0, hn0, l, e, hm, hl, _, hN⟩ := hfb _ ht
    have el : l = n.2 := hm.functional htm
    subst el
    rw [asList_false, normParts_of_not_needs (fun w hw => (hN w hw).needs)] at h3
    cases h3
    refine ⟨_, hss, ⟨n0.1, ⟨n0.2, false⟩⟩, List.mem_map.2 ⟨n0, hn0, rfl⟩, e, ?_⟩
    rw [asList_false]; exact hl
  · rintro ⟨ss', h1, f, hf', rfl, h3⟩
    rw [hss] at h1
    cases h1
    obtain ⟨n, hn, rfl⟩ := List.mem_map.1 hf'
    rw [asList_false] at h3
    obtain ⟨t, l, ht, htm, hl⟩ := hfa n hn
    rw [hl] at h3
    cases h3
    obtain ⟨_, _, l', _, hm', _, _, hN⟩ := hfb _ ht
    have e := hm'.functional htm
    subst e
    refine ⟨_, streams_eq_ok.2 ⟨ns', hnodes', rfl⟩, ⟨n.1, ⟨l', false⟩⟩,
      List.mem_map.2 ⟨(n.1, l'), (hpair _ _).2 ⟨t, ht, htm⟩, rfl⟩, rfl, ?_⟩
    rw [asList_false, normParts_of_not_needs (fun w hw => (hN w hw).needs)]

/-- C17, partial: `concise()` succeeds and denotes exactly the same (sensor, channel list) pairs,
provided integer suffixes are spelled canonically and the spec does not mix empty and non-empty
channel lists (both restrictions are needed, see the `_violated` theorems). -/
theorem C17_concise_same_pairs_partial {spec : Str} {ss : List FSC} (hss : SC.streams spec = .ok ss)
    (hcan : ∀ f ∈ ss, ∀ c ∈ f.chans.parsed, CanonicalCode c)
    (hemp : (∀ f ∈ ss, f.chans.parsed ≠ []) ∨ (∀ f ∈ ss, f.chans.parsed = [])) :
    ∃ t, SC.concise spec = .ok t ∧ ∀ sensor chans, Denotes t sensor chans ↔ Denotes spec sensor chans := by
  obtain ⟨t, h1, -, h2⟩ := concise_main hss hcan hemp
  exact ⟨t, h1, h2⟩

/-- C17: the parts of the concise text are in the order of strings, under the same restrictions.  The channel
lists of one sensor are not, see `C17_order_violated`. -/
theorem C17_sorted_partial {spec : Str} {ss : List FSC} (hss : SC.streams spec = .ok ss)
    (hcan : ∀ f ∈ ss, ∀ c ∈ f.chans.parsed, CanonicalCode c)
    (hemp : (∀ f ∈ ss, f.chans.parsed ≠ []) ∨ (∀ f ∈ ss, f.chans.parsed = [])) :
    ∃ t, SC.concise spec = .ok t ∧ (splitTop 0 t).Pairwise StrLe := by
  obtain ⟨t, h1, ⟨flat, h2⟩, -⟩ := concise_main hss hcan hemp
  refine ⟨t, h1, ?_⟩
  rw [h2]
  exact sortStr_pairwise _

example : SC.concise (p! "(L8,S2):rgb,WV:r|g|b,S2:nir,L8:land.0:4") =
    .ok (p! "(L8,S2,WV):r|g|b,L8:land:4,S2:nir") := by decide

example : splitTop 0 (p! "(L8,S2,WV):r|g|b,L8:land:4,S2:nir") = [p! "(L8,S2,WV):r|g|b", p! "L8:land:4", p! "S2:nir"] := by
  decide

/-- The concise text depends on the order of the spec, although the pairs are the same. -/
theorem C17_order_violated :
    SC.concise (p! "S2:a,S2:b") = .ok (p! "S2:(a,b)") ∧ SC.concise (p! "S2:b,S2:a") = .ok (p! "S2:(b,a)") ∧
    ∀ sensor chans, Denotes (p! "S2:a,S2:b") sensor chans ↔ Denotes (p! "S2:b,S2:a") sensor chans := by
  refine ⟨by decide, by decide, ?_⟩
  have h1 : SC.streams (p! "S2:a,S2:b") = .ok [⟨p! "S2", ⟨[p! "a"], false⟩⟩, ⟨p! "S2", ⟨[p! "b"], false⟩⟩] := by
    decide
  have h2 : SC.streams (p! "S2:b,S2:a") = .ok [⟨p! "S2", ⟨[p! "b"], false⟩⟩, ⟨p! "S2", ⟨[p! "a"], false⟩⟩] := by
    decide
  intro sensor chans
  constructor
  · rintro ⟨ss, hs, f, hf, e⟩
    rw [h1] at hs
    cases hs
    exact ⟨_, h2, f, by simpa [or_comm] using hf, e⟩
  · rintro ⟨ss, hs, f, hf, e⟩
    rw [h2] at hs
    cases hs
    exact ⟨_, h1, f, by simpa [or_comm] using hf, e⟩

/-- C17 fails when a sensor has both an empty and a non-empty channel list: the concise text does
not parse. -/
theorem C17_empty_channels_violated :
    SC.concise (p! "S2:,S2:r") = .ok (p! "S2:(,r)") ∧
    (∃ ss, SC.streams (p! "S2:,S2:r") = .ok ss) ∧
    (∀ ss, SC.streams (p! "S2:(,r)") ≠ .ok ss) := by
  refine ⟨by decide, ⟨[⟨p! "S2", ⟨[], false⟩⟩, ⟨p! "S2", ⟨[p! "r"], false⟩⟩], by decide⟩, ?_⟩
  have : SC.streams (p! "S2:(,r)") = .error .generic := by decide
  intro ss h
  rw [this] at h; cases h

/-- C17 fails for a suffix with leading zeros: another channel is denoted. -/
theorem C17_noncanonical_violated :
    SC.concise (p! "S2:a.01") = .ok (p! "S2:a.1") ∧
    Denotes (p! "S2:a.01") (p! "S2") [p! "a.01"] ∧ ¬ Denotes (p! "S2:a.1") (p! "S2") [p! "a.01"] := by
  refine ⟨by decide, ⟨[⟨p! "S2", ⟨[p! "a.01"], false⟩⟩], by decide, _, List.mem_singleton.2 rfl, rfl, by decide⟩, ?_⟩
  rintro ⟨ss, h1, f, hf, _, h3⟩
  have : SC.streams (p! "S2:a.1") = .ok [⟨p! "S2", ⟨[p! "a.1"], false⟩⟩] := by decide
  rw [this] at h1
  cases h1
  rw [List.mem_singleton] at hf
  subst hf
  exact absurd h3 (by decide)

/-- C17: `normalize()` keeps the streams, in order. -/
theorem C17_normalize_streams {spec : Str} {ss : List FSC} (h : SC.streams spec = .ok ss)
    (hs : spec ≠ []) : ∃ t, SC.normalize spec = .ok t ∧ SC.streams t = .ok ss := by
  obtain ⟨ns, hns, rfl⟩ := streams_eq_ok.1 h
  refine ⟨joinWith ',' (ns.map nodeSpec), by simp [SC.normalize, hs, hns], ?_⟩
  exact streams_eq_ok.2 ⟨ns, nodes_print (nodes_nonempty hns) (nodes_ok hns).1, rfl⟩

/-- C17: `normalize()` accepts every spec that can be read, and the empty text, which has no streams of its own and
is normalized to one stream of the sensor `*` without channels. -/
theorem C17_normalize_accepts (spec : Str) :
    (∃ t, SC.normalize spec = .ok t) ↔ spec = [] ∨ ∃ ss, SC.streams spec = .ok ss := by
  by_cases hs : spec = []
  · subst hs
    exact ⟨fun _ => .inl rfl, fun _ => ⟨p! "*:", by decide⟩⟩
  · constructor
    · rintro ⟨t, h⟩
      right
      simp only [SC.normalize, hs, if_false] at h
      rw [Except.bind_eq_ok'] at h
      obtain ⟨ns, hns, -⟩ := h
      exact ⟨_, streams_eq_ok.2 ⟨ns, hns, rfl⟩⟩
    · rintro (h | ⟨ss, h⟩)
      · exact absurd h hs
      · obtain ⟨t, ht, -⟩ := C17_normalize_streams h hs
        exact ⟨t, ht⟩

example : SC.normalize [] = .ok (p! "*:") ∧ SC.streams (p! "*:") = .ok [⟨p! "*", ⟨[], false⟩⟩] ∧
    SC.streams [] = .error .generic := ⟨by decide, by decide, by decide⟩

/-! ### C18 -/

/-- C18: late fusion concatenates the streams. -/
theorem C18_late_fuse_streams {a b : Str} {sa sb : List FSC} (ha : a ≠ []) (hb : b ≠ [])
    (hsa : SC.streams a = .ok sa) (hsb : SC.streams b = .ok sb) :
    SC.streams (SC.lateFuse [a, b]) = .ok (sa ++ sb) := by
  obtain ⟨na, hna, rfl⟩ := streams_eq_ok.1 hsa
  obtain ⟨nb, hnb, rfl⟩ := streams_eq_ok.1 hsb
  have e : SC.lateFuse [a, b] = a ++ ',' :: b := by simp [SC.lateFuse, ha, hb, joinWith]
  rw [e]
  exact streams_eq_ok.2 ⟨na ++ nb, by rw [nodes_append hna, hnb]; rfl, by simp⟩

/-- C18: an empty spec is an identity of late fusion, and late fusion is associative. -/
theorem C18_late_fuse_monoid (a b c : Str) :
    SC.lateFuse [[], a] = a ∧ SC.lateFuse [a, []] = a ∧
    SC.lateFuse [SC.lateFuse [a, b], c] = SC.lateFuse [a, SC.lateFuse [b, c]] ∧
    SC.lateFuse [SC.lateFuse [a, b], c] = SC.lateFuse [a, b, c] := by
  have ne : ∀ x y : Str, x ++ ',' :: y ≠ [] := by simp
  by_cases ha : a = [] <;> by_cases hb : b = [] <;> by_cases hc : c = [] <;>
    simp [SC.lateFuse, ha, hb, hc, joinWith]

theorem fsc_spec_node (n : Str × List Str) : (⟨n.1, ⟨n.2, false⟩⟩ : FSC).spec = nodeSpec n := rfl

theorem nodeSpec_ne_nil (n : Str × List Str) : nodeSpec n ≠ [] := by simp [nodeSpec]

theorem joinWith_snoc (c : Char) (ws : List Str) (hne : ws ≠ []) (w : Str) :
    joinWith c (ws ++ [w]) = joinWith c ws ++ c :: w := by
  induction ws with
  | nil => exact absurd rfl hne
  | cons x xs ih =>
    cases xs with
    | nil => rfl
    | cons y ys =>
      have := ih (by simp)
      simp only [List.cons_append] at this ⊢
      simp [joinWith, this]

theorem fold_lateFuse (rest : List (Str × List Str)) (done : List (Str × List Str)) (hd : done ≠ []) :
    (rest.map (fun n => (⟨n.1, ⟨n.2, false⟩⟩ : FSC))).foldl (fun acc h => SC.lateFuse [acc, h.spec])
      (joinWith ',' (done.map nodeSpec)) = joinWith ',' ((done ++ rest).map nodeSpec) := by
  induction rest generalizing done with
  | nil => simp
  | cons n rest ih =>
    have hne : joinWith ',' (done.map nodeSpec) ≠ [] := by
      cases done with
      | nil => exact absurd rfl hd
      | cons d ds =>
        cases ds with
        | nil => exact nodeSpec_ne_nil d
        | cons d' ds => simp [joinWith]
    have e : SC.lateFuse [joinWith ',' (done.map nodeSpec), nodeSpec n] =
        joinWith ',' ((done ++ [n]).map nodeSpec) := by
      rw [List.map_append, List.map_singleton, joinWith_snoc _ _ (by simpa using hd)]
      simp [SC.lateFuse, hne, nodeSpec_ne_nil, joinWith]
    simp only [List.map_cons, List.foldl_cons, fsc_spec_node]
    rw [e, ih (done ++ [n]) (by simp)]
    simp

/-- C18: `matching_sensor(s)` has, in order, exactly the streams whose sensor is `s` or `*`; the
special sensor `*` returns the spec itself; without a match it is the empty spec of that sensor. -/
theorem C18_matching_sensor {spec : Str} {ss : List FSC} (h : SC.streams spec = .ok ss) (sensor : Str) :
    (sensor = p! "*" → matchingSensor spec sensor = .ok (.same spec)) ∧
    (sensor ≠ p! "*" → ∃ m, matchingSensor spec sensor = .ok m ∧
      ((∃ f ∈ ss, f.sensor = sensor ∨ f.sensor = p! "*") →
        SC.streams m.spec = .ok (ss.filter (fun f => decide (f.sensor = sensor ∨ f.sensor = p! "*")))) ∧
      ((∀ f ∈ ss, f.sensor ≠ sensor ∧ f.sensor ≠ p! "*") → m = .one ⟨sensor, ⟨[], false⟩⟩)) := by
  refine ⟨fun e => by simp [matchingSensor, e], ?_⟩
  intro hs
  obtain ⟨ns, hns, rfl⟩ := streams_eq_ok.1 h
  have hok := (nodes_ok hns).1
  have hfil : (ns.map (fun n => (⟨n.1, ⟨n.2, false⟩⟩ : FSC))).filter
      (fun f => decide (f.sensor = sensor ∨ f.sensor = p! "*")) =
      (ns.filter (fun n => decide (n.1 = sensor ∨ n.1 = p! "*"))).map (fun n => ⟨n.1, ⟨n.2, false⟩⟩) := by
    rw [List.filter_map]; rfl
  unfold matchingSensor
  rw [if_neg hs, h]
  simp only [Except.ok_bind', hfil]
  generalize hM : ns.filter (fun n => decide (n.1 = sensor ∨ n.1 = p! "*")) = M
  have hMok : ∀ n ∈ M, NodeOk n := by
    intro n hn; rw [← hM] at hn; exact hok n (List.mem_filter.1 hn).1
  have hex : (∃ f ∈ ns.map (fun n => (⟨n.1, ⟨n.2, false⟩⟩ : FSC)), f.sensor = sensor ∨ f.sensor = p! "*") →
      M ≠ [] := by
    rintro ⟨f, hf, hc⟩ e
    obtain ⟨n, hn, rfl⟩ := List.mem_map.1 hf
    have : n ∈ M := by rw [← hM]; exact List.mem_filter.2 ⟨hn, by simpa using hc⟩
    rw [e] at this; cases this
  have hprint : M ≠ [] → SC.streams (joinWith ',' (M.map nodeSpec)) =
      .ok (M.map (fun n => ⟨n.1, ⟨n.2, false⟩⟩)) := by
    intro hne
    exact streams_eq_ok.2 ⟨M, nodes_print hne hMok, rfl⟩
  match M, hex, hprint, hM with
  | [], hex, hprint, hM =>
    refine ⟨_, rfl, fun e => absurd rfl (hex e), fun _ => rfl⟩
  | [n], hex, hprint, hM =>
    refine ⟨_, rfl, fun _ => hprint (by simp), ?_⟩
    intro hall
    exfalso
    have hn : n ∈ ns.filter (fun n => decide (n.1 = sensor ∨ n.1 = p! "*")) := by rw [hM]; simp
    have := List.mem_filter.1 hn
    have h2 := hall ⟨n.1, ⟨n.2, false⟩⟩ (List.mem_map.2 ⟨n, this.1, rfl⟩)
    have h3 : n.1 = sensor ∨ n.1 = p! "*" := by simpa using this.2
    rcases h3 with h3 | h3
    · exact h2.1 h3
    · exact h2.2 h3
  | n :: n' :: M', hex, hprint, hM =>
    refine ⟨_, rfl, fun _ => ?_, ?_⟩
    · rw [← hprint (by simp)]
      congr 1
      show (M'.map _).foldl _ (SC.lateFuse [nodeSpec n, nodeSpec n']) = _
      have e : SC.lateFuse [nodeSpec n, nodeSpec n'] = joinWith ',' ([n, n'].map nodeSpec) := by
        simp [SC.lateFuse, nodeSpec_ne_nil, joinWith]
      rw [e, fold_lateFuse M' [n, n'] (by simp)]
      rfl
    · intro hall
      exfalso
      have hn : n ∈ ns.filter (fun n => decide (n.1 = sensor ∨ n.1 = p! "*")) := by rw [hM]; simp
      have := List.mem_filter.1 hn
      have h2 := hall ⟨n.1, ⟨n.2, false⟩⟩ (List.mem_map.2 ⟨n, this.1, rfl⟩)
      have h3 : n.1 = sensor ∨ n.1 = p! "*" := by simpa using this.2
      rcases h3 with h3 | h3
      · exact h2.1 h3
      · exact h2.2 h3

example : (matchingSensor (p! "(S1,S2):(a|b|c),S2:c|d|e,*:x") (p! "S2")).map Match.spec =
    .ok (p! "S2:a|b|c,S2:c|d|e,*:x") := by decide

/-! ### C43 -/

theorem numelLoop_append (a b : List FSC) :
    numelLoop (a ++ b) = (do let x ← numelLoop a; let y ← numelLoop b; .ok (x + y)) := by
  induction a with
  | nil => simp [numelLoop]; cases numelLoop b <;> simp
  | cons s ss ih =>
    simp only [List.cons_append, numelLoop, ih]
    cases s.chans.numel <;> simp
    cases numelLoop ss <;> simp
    cases numelLoop b <;> simp [Nat.add_assoc]

/-- C43: the number of channels of a late fused spec is the sum. -/
theorem C43_numel_late_fuse {a b : Str} {na nb : Nat} (ha : a ≠ []) (hb : b ≠ [])
    (h1 : SC.numel a = .ok na) (h2 : SC.numel b = .ok nb) :
    SC.numel (SC.lateFuse [a, b]) = .ok (na + nb) := by
  unfold SC.numel at *
  rw [Except.bind_eq_ok'] at h1 h2
  obtain ⟨sa, hsa, h1⟩ := h1
  obtain ⟨sb, hsb, h2⟩ := h2
  rw [C18_late_fuse_streams ha hb hsa hsb]
  simp only [Except.ok_bind', numelLoop_append, h1, h2]

theorem codeOk_norm {cs : List Str} (h : ∀ c ∈ cs, CodeOk c) :
    ∃ l, normParts cs = .ok l ∧ (∀ w ∈ l, CodeOk w) ∧ (∀ w ∈ l, needsNorm w = false) := by
  have : ∃ l, normParts cs = .ok l ∧ (∀ w ∈ l, CodeOk w) := by
    induction cs with
    | nil => exact ⟨[], rfl, by simp⟩
    | cons c cs ih =>
      obtain ⟨l2, h4, h5⟩ := ih (fun x hx => h x (by simp [hx]))
      have : ∃ l1, expandCode c = .ok l1 ∧ ∀ w ∈ l1, CodeOk w := by
        unfold expandCode
        cases hal : alias? c with
        | some l =>
          refine ⟨l, rfl, fun w hw => ?_⟩
          rcases alias_iden hal w hw with ⟨h1, _⟩ | ⟨r, i, hr, hi, rfl⟩
          · exact .inl h1
          · exact codeOk_dotted hr hi
        | none =>
          simp only
          rw [if_neg (codeOk_not_mem (h c (by simp)) (by simp [special]) (by decide))]
          exact ⟨[c], rfl, fun w hw => by rw [List.mem_singleton] at hw; subst hw; exact h w (by simp)⟩
      obtain ⟨l1, h1, h2⟩ := this
      refine ⟨l1 ++ l2, by simp [normParts, h1, h4], ?_⟩
      intro w hw
      rcases List.mem_append.1 hw with hw | hw
      · exact h2 w hw
      · exact h5 w hw
  obtain ⟨l, hl, hw⟩ := this
  exact ⟨l, hl, hw, normParts_needs hl⟩

/-- The streams that `split` should produce for one stream: one per channel, and one empty stream
for an empty channel list. -/
def splitSpec (sensor : Str) (chans : List Str) : List FSC :=
  if chans = [] then [⟨sensor, ⟨[], false⟩⟩] else chans.map (fun c => ⟨sensor, ⟨[c], false⟩⟩)

/-- C43: `split()` has exactly one stream per channel of every stream, in order. -/
theorem C43_split_streams {spec : Str} {ss : List FSC} (h : SC.streams spec = .ok ss) :
    ∃ t chans, SC.split spec = .ok t ∧ ss.map (fun f => f.chans.asList) = chans.map Except.ok ∧
      SC.streams t = .ok ((List.zipWith (fun (f : FSC) l => splitSpec f.sensor l) ss chans).flatten) := by
  obtain ⟨ns, hns, rfl⟩ := streams_eq_ok.1 h
  have hok := (nodes_ok hns).1
  have hne := nodes_nonempty hns
  -- each stream
  have key : ∀ ns : List (Str × List Str), (∀ n ∈ ns, NodeOk n) → ∃ (out : List (Str × List Str)) (chans : List (List Str)),
      flatMapM splitStream (ns.map (fun n => ⟨n.1, ⟨n.2, false⟩⟩)) = .ok (out.map nodeSpec) ∧
      (ns.map (fun n => (⟨n.1, ⟨n.2, false⟩⟩ : FSC))).map (fun f => f.chans.asList) = chans.map Except.ok ∧
      out.map (fun n => (⟨n.1, ⟨n.2, false⟩⟩ : FSC)) =
        (List.zipWith (fun (f : FSC) l => splitSpec f.sensor l)
          (ns.map (fun n => (⟨n.1, ⟨n.2, false⟩⟩ : FSC))) chans).flatten ∧
      (∀ n ∈ out, NodeOk n) ∧ (ns ≠ [] → out ≠ []) := by
    intro ns
    induction ns with
    | nil => intro _; exact ⟨[], [], rfl, rfl, rfl, by simp, by simp⟩
    | cons n ns ih =>
      intro h1
      obtain ⟨out, chans, e1, e2, e3, e4, _⟩ := ih (fun x hx => h1 x (by simp [hx]))
      obtain ⟨l, hl, hw, _⟩ := codeOk_norm (h1 n (by simp)).2
      have hsp : splitStream ⟨n.1, ⟨n.2, false⟩⟩ =
          .ok ((if l = [] then [(n.1, [])] else l.map (fun c => (n.1, [c]))).map nodeSpec) := by
        unfold splitStream
        rw [asList_false, hl]
        simp only [Except.ok_bind', Chan.streams, Chan.keys]
        by_cases hnil : l = []
        · subst hnil
          simp [joinWith, splitOn, Fused.parse, Fused.spec, nodeSpec]
        · rw [splitOn_join hnil (fun w hw' => codeOk_not_mem (hw w hw') (by simp [special]) (by decide)),
            if_neg hnil]
          simp only [List.map_map, Except.ok.injEq]
          apply List.map_congr_left
          intro c hc
          simp only [Function.comp, Fused.spec, nodeSpec, joinWith]
          congr 2
          unfold Fused.parse
          obtain ⟨x, xs, rfl, _⟩ := codeOk_start (hw c hc)
          rw [if_neg (by simp)]
          simp only
          rw [join_splitOn]
      refine ⟨(if l = [] then [(n.1, [])] else l.map (fun c => (n.1, [c]))) ++ out, l :: chans, ?_, ?_, ?_, ?_, ?_⟩
      · simp only [List.map_cons, flatMapM, hsp, e1, Except.ok_bind', List.map_append]
      · simp only [List.map_cons, e2, asList_false, hl]
      · simp only [List.map_append, e3, List.map_cons, List.zipWith_cons_cons, List.flatten_cons]
        congr 1
        unfold splitSpec
        split <;> simp
      · intro m hm
        rcases List.mem_append.1 hm with hm | hm
        · split at hm
          · rw [List.mem_singleton] at hm; subst hm
            exact ⟨(h1 n (by simp)).1, by simp⟩
          · obtain ⟨c, hc, rfl⟩ := List.mem_map.1 hm
            exact ⟨(h1 n (by simp)).1, fun x hx => by rw [List.mem_singleton] at hx; subst hx; exact hw x hc⟩
        · exact e4 m hm
      · intro _ e
        rw [List.append_eq_nil_iff] at e
        have := e.1
        split at this
        · cases this
        · next hnil => exact hnil (List.map_eq_nil_iff.1 this)
  obtain ⟨out, chans, e1, e2, e3, e4, e5⟩ := key ns hok
  refine ⟨joinWith ',' (out.map nodeSpec), chans, ?_, e2, ?_⟩
  · unfold SC.split
    rw [h]
    simp only [Except.ok_bind', e1]
  · rw [← e3]
    exact streams_eq_ok.2 ⟨out, nodes_print (e5 hne) e4, rfl⟩

example : SC.split (p! "L8:mat:2,S2:red|rgb,x:") = .ok (p! "L8:mat.0,L8:mat.1,S2:red,S2:r,S2:g,S2:b,x:") := by
  decide

end Verif.Props
