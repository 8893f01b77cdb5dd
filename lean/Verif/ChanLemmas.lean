/-
Helper lemmas about `ChannelSpec`: dictionaries, streams, slices.
-/
import Verif.Chan
import Verif.ChannelSpecLemmas

set_option linter.unusedSimpArgs false
set_option linter.unusedVariables false

namespace Verif
open Fused

section Dict
variable {κ α : Type} [DecidableEq κ]

theorem dictGet_dictSet (d : List (κ × α)) (k k' : κ) (v : α) :
    dictGet (dictSet d k v) k' = if k = k' then some v else dictGet d k' := by
  induction d with
  | nil => simp [dictSet, dictGet]
  | cons p rest ih =>
    obtain ⟨a, b⟩ := p
    simp only [dictSet]
    split
    · next h =>
      subst h
      simp only [dictGet]
      split <;> rfl
    · next h =>
      simp only [dictGet, ih]
      split
      · next h' => subst h'; rw [if_neg (fun e => h e.symm)]
      · rfl

theorem dictSet_of_not_mem (d : List (κ × α)) (k : κ) (v : α) (h : k ∉ d.map Prod.fst) :
    dictSet d k v = d ++ [(k, v)] := by
  induction d with
  | nil => rfl
  | cons p rest ih =>
    obtain ⟨a, b⟩ := p
    simp only [List.map_cons, List.mem_cons, not_or] at h
    simp [dictSet, Ne.symm h.1, ih h.2]

theorem dictOf_of_nodup (d items : List (κ × α)) (h : ((d ++ items).map Prod.fst).Nodup) :
    dictOf d items = d ++ items := by
  induction items generalizing d with
  | nil => simp [dictOf]
  | cons p rest ih =>
    obtain ⟨k, v⟩ := p
    have hk : k ∉ d.map Prod.fst := by
      rw [List.map_append, List.nodup_append] at h
      intro hk
      exact h.2.2 k hk k (by simp) rfl
    have : dictOf d ((k, v) :: rest) = dictOf (dictSet d k v) rest := rfl
    rw [this, dictSet_of_not_mem d k v hk, ih]
    · simp
    · simpa using h

theorem dictGet_mem {d : List (κ × α)} {k : κ} {v : α} (h : dictGet d k = some v) :
    (k, v) ∈ d := by
  induction d with
  | nil => simp [dictGet] at h
  | cons p rest ih =>
    obtain ⟨a, b⟩ := p
    simp only [dictGet] at h
    split at h
    · next e => subst e; cases h; simp
    · exact List.mem_cons_of_mem _ (ih h)

theorem dictGet_isSome {d : List (κ × α)} {k : κ} (h : k ∈ d.map Prod.fst) :
    ∃ v, dictGet d k = some v := by
  induction d with
  | nil => simp at h
  | cons p rest ih =>
    obtain ⟨a, b⟩ := p
    simp only [dictGet]
    split
    · exact ⟨b, rfl⟩
    · next e =>
      simp only [List.map_cons, List.mem_cons] at h
      rcases h with h | h
      · exact absurd h.symm e
      · exact ih h

theorem dictGet_of_mem_nodup {d : List (κ × α)} {k : κ} {v : α} (hn : (d.map Prod.fst).Nodup)
    (h : (k, v) ∈ d) : dictGet d k = some v := by
  induction d with
  | nil => simp at h
  | cons p rest ih =>
    obtain ⟨a, b⟩ := p
    simp only [List.map_cons, List.nodup_cons] at hn
    simp only [dictGet]
    rcases List.mem_cons.1 h with h | h
    · cases h; simp
    · rw [if_neg, ih hn.2 h]
      intro e; subst e
      exact hn.1 (List.mem_map_of_mem (f := Prod.fst) h)

/-- Every entry after inserting `items` into `d` is an entry of `d` or one of `items`. -/
theorem dictGet_dictOf {d items : List (κ × α)} {k : κ} {v : α}
    (h : dictGet (dictOf d items) k = some v) : dictGet d k = some v ∨ (k, v) ∈ items := by
  induction items generalizing d with
  | nil => exact .inl h
  | cons p rest ih =>
    obtain ⟨a, b⟩ := p
    rcases ih (d := dictSet d a b) h with h | h
    · rw [dictGet_dictSet] at h
      split at h
      · next h0 e => subst e; rw [Option.some.injEq] at h; subst h; exact .inr (by simp)
      · exact .inl h
    · exact .inr (List.mem_cons_of_mem _ h)

theorem dictGet_dictOf_isSome {d items : List (κ × α)} {k : κ}
    (h : (∃ v, dictGet d k = some v) ∨ k ∈ items.map Prod.fst) :
    ∃ v, dictGet (dictOf d items) k = some v := by
  induction items generalizing d with
  | nil =>
    rcases h with h | h
    · exact h
    · simp at h
  | cons p rest ih =>
    obtain ⟨a, b⟩ := p
    apply ih (d := dictSet d a b)
    by_cases e : a = k
    · exact .inl ⟨b, by rw [dictGet_dictSet, if_pos e]⟩
    · rcases h with h | h
      · left; rw [dictGet_dictSet, if_neg e]; exact h
      · simp only [List.map_cons, List.mem_cons] at h
        rcases h with h | h
        · exact absurd h.symm e
        · exact .inr h

theorem dictOf_append (d a b : List (κ × α)) : dictOf d (a ++ b) = dictOf (dictOf d a) b := by
  simp [dictOf, List.foldl_append]

theorem dictGet_none {d : List (κ × α)} {k : κ} (h : k ∉ d.map Prod.fst) : dictGet d k = none := by
  cases hd : dictGet d k with
  | none => rfl
  | some v => exact absurd (List.mem_map_of_mem (f := Prod.fst) (dictGet_mem hd)) h

theorem mem_keys_dictSet (d : List (κ × α)) (k k' : κ) (v : α) :
    k' ∈ (dictSet d k v).map Prod.fst ↔ k' = k ∨ k' ∈ d.map Prod.fst := by
  induction d with
  | nil => simp [dictSet]
  | cons p rest ih =>
    obtain ⟨a, b⟩ := p
    simp only [dictSet]
    split
    · next e => subst e; simp
    · simp only [List.map_cons, List.mem_cons, ih]
      constructor <;> rintro (h | h | h) <;> simp [h]

theorem nodup_keys_dictSet (d : List (κ × α)) (k : κ) (v : α) (h : (d.map Prod.fst).Nodup) :
    ((dictSet d k v).map Prod.fst).Nodup := by
  induction d with
  | nil => simp [dictSet]
  | cons p rest ih =>
    obtain ⟨a, b⟩ := p
    simp only [List.map_cons, List.nodup_cons] at h
    simp only [dictSet]
    split
    · next e => subst e; simpa using h
    · next e =>
      simp only [List.map_cons, List.nodup_cons, mem_keys_dictSet, not_or]
      exact ⟨⟨e, h.1⟩, ih h.2⟩

end Dict

/-- Splitting at every separator distributes over concatenation. -/
theorem splitOn_append (c : Char) (s t : Str) :
    splitOn c (s ++ c :: t) = splitOn c s ++ splitOn c t := by
  induction s with
  | nil => simp [splitOn]
  | cons x xs ih =>
    simp only [List.cons_append, splitOn, ih]
    split
    · rfl
    · cases h : splitOn c xs with
      | nil => exact absurd h (splitOn_ne_nil c xs)
      | cons w ws => rfl

theorem joinWith_injective {c : Char} {a b : List Str} (ha : a ≠ []) (hb : b ≠ [])
    (h1 : ∀ w ∈ a, c ∉ w) (h2 : ∀ w ∈ b, c ∉ w) (h : joinWith c a = joinWith c b) : a = b := by
  rw [← splitOn_join ha h1, ← splitOn_join hb h2, h]

/-- A code list that survives being written as one stream of a spec string. -/
structure StreamOk (g : List Str) : Prop where
  ne : g ≠ []
  ne' : g ≠ [[]]
  pipe : ∀ c ∈ g, '|' ∉ c
  comma : ∀ c ∈ g, ',' ∉ c

/-- The spec string `a|b,c|d` with the given streams. -/
def specOf (streams : List (List Str)) : Str := joinWith ',' (streams.map (joinWith '|'))

theorem StreamOk.join_ne_nil {g : List Str} (h : StreamOk g) : joinWith '|' g ≠ [] := by
  intro e
  cases g with
  | nil => exact h.ne rfl
  | cons c cs =>
    cases cs with
    | nil => exact h.ne' (by simpa [joinWith] using e)
    | cons c' cs => simp [joinWith] at e

theorem StreamOk.join_comma {g : List Str} (h : StreamOk g) : ',' ∉ joinWith '|' g := by
  intro hm
  rcases mem_joinWith hm with e | ⟨w, hw, hm⟩
  · exact absurd e (by decide)
  · exact h.comma w hw hm

theorem StreamOk.split_join {g : List Str} (h : StreamOk g) :
    splitOn '|' (joinWith '|' g) = g := splitOn_join h.ne h.pipe

theorem streams_join_injective {a b : List Str} (ha : StreamOk a) (hb : StreamOk b)
    (h : joinWith '|' a = joinWith '|' b) : a = b :=
  joinWith_injective ha.ne hb.ne ha.pipe hb.pipe h

theorem splitOn_specOf {ss : List (List Str)} (hne : ss ≠ []) (h : ∀ g ∈ ss, StreamOk g) :
    splitOn ',' (specOf ss) = ss.map (joinWith '|') := by
  apply splitOn_join (by simpa using hne)
  intro w hw
  obtain ⟨g, hg, rfl⟩ := List.mem_map.1 hw
  exact (h g hg).join_comma

theorem nodup_map_join {ss : List (List Str)} (h : ∀ g ∈ ss, StreamOk g) (hn : ss.Nodup) :
    (ss.map (joinWith '|')).Nodup := by
  induction ss with
  | nil => simp
  | cons g gs ih =>
    rw [List.nodup_cons] at hn
    rw [List.map_cons, List.nodup_cons]
    refine ⟨?_, ih (fun x hx => h x (by simp [hx])) hn.2⟩
    intro hm
    obtain ⟨g', hg', e⟩ := List.mem_map.1 hm
    have := streams_join_injective (h g' (by simp [hg'])) (h g (by simp)) e
    exact hn.1 (this ▸ hg')

namespace Chan

theorem parse_specOf {ss : List (List Str)} (hne : ss ≠ []) (h : ∀ g ∈ ss, StreamOk g)
    (hn : ss.Nodup) :
    parse ⟨specOf ss, none⟩ = ss.map (fun g => (joinWith '|' g, (⟨g, false⟩ : Fused))) := by
  unfold parse
  simp only
  rw [splitOn_specOf hne h]
  have hf : (ss.map (joinWith '|')).filter (fun s => decide (s ≠ [])) = ss.map (joinWith '|') := by
    rw [List.filter_eq_self]
    intro w hw
    obtain ⟨g, hg, rfl⟩ := List.mem_map.1 hw
    simpa using (h g hg).join_ne_nil
  rw [hf, List.map_map]
  have he : ss.map ((fun s => (s, (⟨splitOn '|' s, false⟩ : Fused))) ∘ joinWith '|') =
      ss.map (fun g => (joinWith '|' g, (⟨g, false⟩ : Fused))) := by
    apply List.map_congr_left
    intro g hg
    simp [(h g hg).split_join]
  rw [he, dictOf_of_nodup]
  · simp
  · simpa [Function.comp_def] using nodup_map_join h hn

theorem streams_specOf {ss : List (List Str)} (hne : ss ≠ []) (h : ∀ g ∈ ss, StreamOk g) :
    streams ⟨specOf ss, none⟩ = ss.map (fun g => (⟨g, false⟩ : Fused)) := by
  unfold streams keys
  simp only
  rw [splitOn_specOf hne h, List.map_map]
  apply List.map_congr_left
  intro g hg
  simp [Fused.parse, (h g hg).join_ne_nil, (h g hg).split_join]

theorem fuse_specOf {ss : List (List Str)} (hne : ss ≠ []) (h : ∀ g ∈ ss, StreamOk g) :
    fuse ⟨specOf ss, none⟩ = ⟨ss.flatten, false⟩ := by
  unfold fuse
  rw [streams_specOf hne h]
  have key : (⟨((ss.map (fun g => (⟨g, false⟩ : Fused))).map (·.parsed)).flatten, false⟩ : Fused) =
      ⟨ss.flatten, false⟩ := by
    rw [List.map_map]; congr 2; simp [Function.comp_def]
  cases ss with
  | nil => exact absurd rfl hne
  | cons g gs =>
    cases gs with
    | nil => simp
    | cons g' gs => simpa using key

/-! ### component loops -/

theorem sizesLoop_ok {l : List Str} {size : Str → Nat} (h : ∀ c ∈ l, codeSize c = .ok (size c)) :
    Fused.sizesLoop l = .ok (l.map size) := by
  induction l with
  | nil => rfl
  | cons c cs ih =>
    simp [Fused.sizesLoop, h c (by simp), ih (fun x hx => h x (by simp [hx]))]

theorem zip_map_self {α β} (l : List α) (f : α → β) : l.zip (l.map f) = l.map (fun x => (x, f x)) := by
  induction l with
  | nil => rfl
  | cons x xs ih => simp [ih]

/-- `(k, key, s, e)` is the slice of an occurrence of the code `k` in the stream `g`. -/
def Occ (size : Str → Nat) (g : List Str) (p : Str × Str × Nat × Nat) : Prop :=
  ∃ pre post, g = pre ++ p.1 :: post ∧ p.2.1 = joinWith '|' g ∧ p.2.2.1 = (pre.map size).sum ∧
    p.2.2.2 = p.2.2.1 + size p.1

theorem componentLoop_occ (size : Str → Nat) (g pre l : List Str) (hg : g = pre ++ l) :
    ∀ p ∈ componentLoop (joinWith '|' g) (pre.map size).sum (l.map (fun x => (x, size x))),
      Occ size g p := by
  induction l generalizing pre with
  | nil => simp [componentLoop]
  | cons c cs ih =>
    intro p hp
    simp only [List.map_cons, componentLoop, List.mem_cons] at hp
    rcases hp with rfl | hp
    · exact ⟨pre, cs, hg, rfl, rfl, rfl⟩
    · have := ih (pre ++ [c]) (by simp [hg])
      apply this
      simpa using hp

theorem componentLoop_fst (key : Str) (i : Nat) (l : List (Str × Nat)) :
    (componentLoop key i l).map Prod.fst = l.map Prod.fst := by
  induction l generalizing i with
  | nil => rfl
  | cons p ps ih => obtain ⟨a, b⟩ := p; simp [componentLoop, ih]

theorem componentLoop_key (key : Str) (i : Nat) (l : List (Str × Nat)) :
    ∀ p ∈ componentLoop key i l, p.2.1 = key := by
  induction l generalizing i with
  | nil => simp [componentLoop]
  | cons p ps ih =>
    obtain ⟨a, b⟩ := p
    intro q hq
    simp only [componentLoop, List.mem_cons] at hq
    rcases hq with rfl | hq
    · rfl
    · exact ih _ q hq

theorem componentItems_ok {ss : List (List Str)} {size : Str → Nat}
    (h : ∀ g ∈ ss, ∀ c ∈ g, codeSize c = .ok (size c)) :
    componentItems (ss.map (fun g => (joinWith '|' g, (⟨g, false⟩ : Fused)))) =
      .ok ((ss.map (fun g => componentLoop (joinWith '|' g) 0 (g.map (fun x => (x, size x))))).flatten) := by
  induction ss with
  | nil => rfl
  | cons g gs ih =>
    simp only [List.map_cons, componentItems, Fused.sizes, Bool.false_eq_true, if_false,
      sizesLoop_ok (h g (by simp)), Except.ok_bind', ih (fun x hx => h x (by simp [hx])),
      zip_map_self, List.flatten_cons]

/-! ### slices -/

theorem rows_flatten {α} (comp : Str → List α) (pre post : List Str) (k : Str) :
    rows (((pre ++ k :: post).map comp).flatten) (pre.map (fun c => (comp c).length)).sum
      ((pre.map (fun c => (comp c).length)).sum + (comp k).length) = comp k := by
  have e : (pre.map (fun c => (comp c).length)).sum = ((pre.map comp).flatten).length := by
    induction pre with
    | nil => rfl
    | cons c cs ih => simp [ih]
  unfold rows
  rw [e]
  simp only [List.map_append, List.map_cons, List.flatten_append, List.flatten_cons]
  rw [← List.append_assoc]
  rw [List.take_append_of_le_length (by simp)]
  rw [List.take_of_length_le (by simp)]
  simp

theorem rows_append {α} (arr : List α) (a b c : Nat) (h1 : a ≤ b) (h2 : b ≤ c) :
    rows arr a b ++ rows arr b c = rows arr a c := by
  unfold rows
  have : arr.take c = arr.take b ++ (arr.drop b).take (c - b) := by
    rw [← List.take_add]; congr 1; omega
  rw [this]
  by_cases hb : b ≤ arr.length
  · have hlen : (arr.take b).length = b := by simp; omega
    rw [List.drop_append_of_le_length (i := a) (by rw [hlen]; exact h1)]
    congr 1
    rw [List.drop_append_of_le_length (i := b) (by rw [hlen]; exact Nat.le_refl _)]
    rw [List.drop_of_length_le (i := b) (by rw [hlen]; exact Nat.le_refl _)]
    simp
  · have h0 : arr.drop b = [] := List.drop_of_length_le (by omega)
    rw [h0]
    have : List.drop b (List.take b arr ++ List.take (c - b) ([] : List α)) = [] := by
      apply List.drop_of_length_le; simp; omega
    rw [this]; simp

theorem decodeLoop_eq {α} (comp : Str → List α) (pre l : List Str) :
    decodeLoop (((pre ++ l).map comp).flatten) (pre.map (fun c => (comp c).length)).sum
      (l.map (fun x => (x, (comp x).length))) = l.map (fun c => (c, comp c)) := by
  induction l generalizing pre with
  | nil => rfl
  | cons c cs ih =>
    simp only [List.map_cons, decodeLoop]
    rw [rows_flatten]
    have := ih (pre ++ [c])
    rw [List.append_assoc] at this
    simp only [List.singleton_append, List.map_append, List.map_cons, List.map_nil, List.sum_append,
      List.sum_cons, List.sum_nil, Nat.add_zero] at this
    rw [show (pre ++ c :: cs).map comp = pre.map comp ++ comp c :: cs.map comp by simp]
    rw [this]

/-! ### itemIndices -/

theorem itemIndices_spec {groups : List (List Str)} {size : Str → Nat}
    (hok : ∀ g ∈ groups, StreamOk g) (h : ∀ g ∈ groups, ∀ c ∈ g, codeSize c = .ok (size c))
    (keys : List Str) (hkeys : ∀ k ∈ keys, ∃ g ∈ groups, k = joinWith '|' g)
    (acc : List (Str × Str × Nat × Nat))
    (hacc : ∀ k v, dictGet acc k = some v → ∃ g ∈ groups, Occ size g (k, v)) :
    ∃ d, itemIndices acc keys = .ok d ∧
      (∀ k v, dictGet d k = some v → ∃ g ∈ groups, Occ size g (k, v)) ∧
      (∀ k, ((∃ v, dictGet acc k = some v) ∨ ∃ g ∈ groups, joinWith '|' g ∈ keys ∧ k ∈ g) →
        ∃ v, dictGet d k = some v) := by
  induction keys generalizing acc with
  | nil =>
    refine ⟨acc, rfl, hacc, ?_⟩
    rintro k (h | ⟨g, _, h, _⟩)
    · exact h
    · simp at h
  | cons key ks ih =>
    obtain ⟨g, hg, rfl⟩ := hkeys key (by simp)
    have hp : parse ⟨joinWith '|' g, none⟩ = [(joinWith '|' g, ⟨g, false⟩)] := by
      have := parse_specOf (ss := [g]) (by simp) (by simpa using hok g hg) (by simp)
      simpa [specOf, joinWith] using this
    have hci : componentIndices ⟨joinWith '|' g, none⟩ =
        .ok (dictOf [] (componentLoop (joinWith '|' g) 0 (g.map (fun x => (x, size x))))) := by
      unfold componentIndices
      rw [hp]
      have := componentItems_ok (ss := [g]) (size := size) (by simpa using h g hg)
      simp only [List.map_cons, List.map_nil, List.flatten_cons, List.flatten_nil,
        List.append_nil] at this
      rw [this]; rfl
    simp only [itemIndices, hci, Except.ok_bind']
    have hocc := componentLoop_occ size g [] g rfl
    simp only [List.map_nil, List.sum_nil] at hocc
    have hmem : ∀ k v, (k, v) ∈ dictOf ([] : List (Str × Str × Nat × Nat))
        (componentLoop (joinWith '|' g) 0 (g.map (fun x => (x, size x)))) → Occ size g (k, v) := by
      intro k v hkv
      have nd : ∀ (items d : List (Str × Str × Nat × Nat)), (d.map Prod.fst).Nodup →
          ((dictOf d items).map Prod.fst).Nodup := by
        intro items
        induction items with
        | nil => intro d hd; exact hd
        | cons p ps ih => intro d hd; exact ih _ (nodup_keys_dictSet _ _ _ hd)
      have hget := dictGet_of_mem_nodup (nd _ [] (by simp)) hkv
      rcases dictGet_dictOf hget with h' | h'
      · simp [dictGet] at h'
      · exact hocc _ h'
    obtain ⟨d, hd, hd1, hd2⟩ := ih (fun k hk => hkeys k (by simp [hk]))
      (dictOf acc (dictOf [] (componentLoop (joinWith '|' g) 0 (g.map (fun x => (x, size x)))))) (by
        intro k v hkv
        rcases dictGet_dictOf hkv with h' | h'
        · exact hacc k v h'
        · exact ⟨g, hg, hmem k v h'⟩)
    refine ⟨d, hd, hd1, ?_⟩
    intro k hk
    apply hd2
    rcases hk with hk | ⟨g', hg', hin, hkg⟩
    · exact .inl (dictGet_dictOf_isSome (.inl hk))
    · rcases List.mem_cons.1 hin with e | hin
      · left
        have := streams_join_injective (hok g' hg') (hok g hg) e
        subst this
        apply dictGet_dictOf_isSome
        right
        obtain ⟨v, hv⟩ := dictGet_dictOf_isSome (d := ([] : List (Str × Str × Nat × Nat)))
          (items := componentLoop (joinWith '|' g') 0 (g'.map (fun x => (x, size x)))) (k := k)
          (.inr (by rw [componentLoop_fst]; simpa using hkg))
        exact List.mem_map_of_mem (f := Prod.fst) (dictGet_mem hv)
      · exact .inr ⟨g', hg', hin, hkg⟩

theorem mem_insertStr (x y : Str) (l : List Str) : y ∈ insertStr x l ↔ y = x ∨ y ∈ l := by
  induction l with
  | nil => simp [insertStr]
  | cons z zs ih =>
    simp only [insertStr]
    split
    · simp
    · simp only [List.mem_cons, ih]
      constructor <;> rintro (h | h | h) <;> simp [h]

theorem mem_sortStr (y : Str) (l : List Str) : y ∈ sortStr l ↔ y ∈ l := by
  induction l with
  | nil => simp [sortStr]
  | cons z zs ih =>
    simp only [sortStr, List.foldr_cons, mem_insertStr, List.mem_cons]
    rw [← ih]; rfl

theorem dictGet_map_key {α} {groups : List (List Str)} (hok : ∀ g ∈ groups, StreamOk g)
    (f : List Str → α) {g : List Str} (hg : g ∈ groups) :
    dictGet (groups.map (fun g => (joinWith '|' g, f g))) (joinWith '|' g) = some (f g) := by
  induction groups with
  | nil => simp at hg
  | cons g' gs ih =>
    simp only [List.map_cons, dictGet]
    split
    · next e =>
      rw [streams_join_injective (hok g' (by simp)) (hok g hg) e]
    · next e =>
      rcases List.mem_cons.1 hg with rfl | hg
      · exact absurd rfl e
      · exact ih (fun x hx => hok x (by simp [hx])) hg

/-! ### the merge loop -/

/-- Two occurrences in the same stream with the same start are the same code, if sizes are
positive. -/
theorem occ_start_inj {size : Str → Nat} {g : List Str} {p q : Str × Str × Nat × Nat}
    (hp : Occ size g p) (hq : Occ size g q) (hs : p.2.2.1 = q.2.2.1)
    (hp0 : 0 < size p.1) (hq0 : 0 < size q.1) : p.1 = q.1 := by
  obtain ⟨pre, post, e1, _, s1, _⟩ := hp
  obtain ⟨pre', post', e2, _, s2, _⟩ := hq
  rw [s1, s2] at hs
  rw [e1] at e2
  rcases List.append_eq_append_iff.1 e2 with ⟨a, ha, hb⟩ | ⟨a, ha, hb⟩
  · cases a with
    | nil =>
      simp only [List.nil_append, List.cons.injEq] at hb
      exact hb.1
    | cons x xs =>
      simp only [List.cons_append, List.cons.injEq] at hb
      rw [ha, ← hb.1] at hs
      simp at hs
      omega
  · cases a with
    | nil =>
      simp only [List.nil_append, List.cons.injEq] at hb
      exact hb.1.symm
    | cons x xs =>
      simp only [List.cons_append, List.cons.injEq] at hb
      rw [ha, ← hb.1] at hs
      simp at hs
      omega

/-- A group of slices that merges into one slice. -/
def GoodGroup : List (Str × Nat × Nat) → Prop
  | [_] => True
  | [e1, e2] => e1.1 = e2.1 ∧ e1.2.2 = e2.2.1
  | _ => False

/-- Loop invariant of the merge loop, after the entries `done`. -/
structure MInv (done : List (Str × Nat × Nat)) (st : MState) : Prop where
  flat : done = st.accepted.flatten ++ st.accum
  good : ∀ g ∈ st.accepted, GoodGroup g
  accGood : st.accum = [] ∨ GoodGroup st.accum
  prev : st.prev = st.accum.head?
  nonempty : st.accum = [] → st.accepted = []

theorem mergeStep_inv {groups : List (List Str)} {size : Str → Nat}
    {done : List (Str × Str × Nat × Nat)} {p : Str × Str × Nat × Nat} {st : MState}
    (hok : ∀ g ∈ groups, StreamOk g)
    (hocc : ∀ q ∈ done ++ [p], ∃ g ∈ groups, Occ size g q)
    (hpos : ∀ q ∈ done ++ [p], 0 < size q.1)
    (hnd : ((done ++ [p]).map Prod.fst).Nodup)
    (h : MInv (done.map Prod.snd) st) : MInv ((done ++ [p]).map Prod.snd) (mergeStep st p.2) := by
  obtain ⟨flat, good, accGood, prev, nonempty⟩ := h
  obtain ⟨prv, accepted, accum⟩ := st
  simp only at flat good accGood prev nonempty
  cases accum with
  | nil =>
    have := nonempty rfl
    subst this
    simp only [List.head?_nil] at prev
    subst prev
    simp only [List.flatten_nil, List.append_nil, List.map_eq_nil_iff] at flat
    subst flat
    refine ⟨by simp [mergeStep], by simp [mergeStep], .inr (by simp [mergeStep, GoodGroup]),
      by simp [mergeStep], by simp [mergeStep]⟩
  | cons e1 rest =>
    simp only [List.head?_cons] at prev
    subst prev
    have hacc : GoodGroup (e1 :: rest) := by
      rcases accGood with h | h
      · cases h
      · exact h
    unfold mergeStep
    simp only
    split
    · next hc =>
      have hrest : rest = [] := by
        cases rest with
        | nil => rfl
        | cons e2 rest =>
          cases rest with
          | cons _ _ => exact absurd hacc (by simp [GoodGroup])
          | nil =>
            exfalso
            simp only [GoodGroup] at hacc
            have hm : e2 ∈ done.map Prod.snd := by rw [flat]; simp
            obtain ⟨q, hq, rfl⟩ := List.mem_map.1 hm
            obtain ⟨g, hg, ho⟩ := hocc q (by simp [hq])
            obtain ⟨g', hg', ho'⟩ := hocc p (by simp)
            have hk : q.2.1 = p.2.1 := by rw [← hacc.1, hc.1]
            have hgg : g = g' := by
              obtain ⟨_, _, _, k1, _⟩ := ho
              obtain ⟨_, _, _, k2, _⟩ := ho'
              exact streams_join_injective (hok g hg) (hok g' hg') (by rw [← k1, ← k2, hk])
            subst hgg
            have := occ_start_inj ho ho' (by rw [← hacc.2, hc.2]) (hpos q (by simp [hq]))
              (hpos p (by simp))
            rw [List.map_append, List.nodup_append] at hnd
            exact hnd.2.2 q.1 (List.mem_map_of_mem (f := Prod.fst) hq) p.1 (by simp) this
      subst hrest
      refine ⟨by simp [flat], good, .inr ?_, by simp, by simp⟩
      simpa [GoodGroup] using hc
    · next hc =>
      simp only [reduceCtorEq, if_false]
      refine ⟨by simp [flat], ?_, .inr (by simp [GoodGroup]), by simp, by simp⟩
      intro g hg
      rcases List.mem_append.1 hg with hg | hg
      · exact good g hg
      · simp only [List.mem_singleton] at hg; subst hg; exact hacc

theorem mergeLoop_inv {groups : List (List Str)} {size : Str → Nat}
    (todo done : List (Str × Str × Nat × Nat)) {st : MState}
    (hok : ∀ g ∈ groups, StreamOk g)
    (hocc : ∀ q ∈ done ++ todo, ∃ g ∈ groups, Occ size g q)
    (hpos : ∀ q ∈ done ++ todo, 0 < size q.1)
    (hnd : ((done ++ todo).map Prod.fst).Nodup)
    (h : MInv (done.map Prod.snd) st) :
    MInv ((done ++ todo).map Prod.snd) ((todo.map Prod.snd).foldl mergeStep st) := by
  induction todo generalizing done st with
  | nil => simpa using h
  | cons p ps ih =>
    have e : done ++ p :: ps = (done ++ [p]) ++ ps := by simp
    rw [e] at hocc hpos hnd ⊢
    simp only [List.map_cons, List.foldl_cons]
    apply ih _ hocc hpos hnd
    refine mergeStep_inv hok (fun q hq => hocc q (List.mem_append_left _ hq))
      (fun q hq => hpos q (List.mem_append_left _ hq)) ?_ h
    rw [List.map_append, List.nodup_append] at hnd
    exact hnd.1

/-- Reading merged slices gives the same rows as reading the slices one by one. -/
theorem readSlices_merge {α} {item : List (Str × List α)} {gs : List (List (Str × Nat × Nat))}
    (read : Str → List α)
    (hg : ∀ g ∈ gs, GoodGroup g)
    (hr : ∀ g ∈ gs, ∀ e ∈ g, dictGet item e.1 = some (read e.1) ∧ e.2.1 ≤ e.2.2) :
    ∃ parts, readSlices item (gs.filterMap mergeGroup) = .ok parts ∧
      parts.flatten = (gs.flatten.map (fun e => rows (read e.1) e.2.1 e.2.2)).flatten ∧
      parts.length = gs.length := by
  induction gs with
  | nil => exact ⟨[], rfl, rfl, rfl⟩
  | cons g gs ih =>
    obtain ⟨parts, h1, h2, h3⟩ := ih (fun x hx => hg x (by simp [hx])) (fun x hx => hr x (by simp [hx]))
    have hgood := hg g (by simp)
    have hread := hr g (by simp)
    match g, hgood, hread with
    | [e], _, hread =>
      refine ⟨rows (read e.1) e.2.1 e.2.2 :: parts, ?_, ?_, by simp [h3]⟩
      · simp [mergeGroup, readSlices, (hread e (by simp)).1, h1]
      · simp [h2]
    | [e1, e2], hgood, hread =>
      have r1 := hread e1 (by simp)
      have r2 := hread e2 (by simp)
      refine ⟨rows (read e1.1) e1.2.1 e2.2.2 :: parts, ?_, ?_, by simp [h3]⟩
      · simp [mergeGroup, readSlices, r1.1, h1]
      · simp only [List.flatten_cons, h2, List.cons_append, List.nil_append, List.map_cons]
        rw [← rows_append (read e1.1) e1.2.1 e1.2.2 e2.2.2 r1.2 (by rw [hgood.2]; exact r2.2)]
        rw [← hgood.1, ← hgood.2]
        simp

theorem mergeGroups_spec {groups : List (List Str)} {size : Str → Nat}
    (l : List (Str × Str × Nat × Nat))
    (hok : ∀ g ∈ groups, StreamOk g)
    (hocc : ∀ q ∈ l, ∃ g ∈ groups, Occ size g q)
    (hpos : ∀ q ∈ l, 0 < size q.1)
    (hnd : (l.map Prod.fst).Nodup) :
    (∀ g ∈ mergeGroups (l.map Prod.snd), GoodGroup g) ∧
      (mergeGroups (l.map Prod.snd)).flatten = l.map Prod.snd := by
  have inv := mergeLoop_inv l [] hok (by simpa using hocc) (by simpa using hpos) (by simpa using hnd)
    (st := ⟨none, [], []⟩) ⟨rfl, by simp, .inl rfl, rfl, fun _ => rfl⟩
  obtain ⟨flat, good, accGood, prev, nonempty⟩ := inv
  simp only [List.nil_append] at flat
  unfold mergeGroups
  simp only
  split
  · next h => exact ⟨good, by rw [h, List.append_nil] at flat; exact flat.symm⟩
  · next h =>
    refine ⟨?_, by rw [List.flatten_append]; simpa using flat.symm⟩
    intro g hg
    rcases List.mem_append.1 hg with hg | hg
    · exact good g hg
    · simp only [List.mem_singleton] at hg
      subst hg
      rcases accGood with h' | h'
      · exact absurd h' h
      · exact h'

theorem lookupAll_ok {α} {d : List (Str × α)} {ks : List Str}
    (h : ∀ k ∈ ks, ∃ v, dictGet d k = some v) :
    ∃ vs, lookupAll d ks = .ok vs ∧ vs.length = ks.length ∧
      ∀ p ∈ ks.zip vs, dictGet d p.1 = some p.2 := by
  induction ks with
  | nil => exact ⟨[], rfl, rfl, by simp⟩
  | cons k ks ih =>
    obtain ⟨v, hv⟩ := h k (by simp)
    obtain ⟨vs, h1, h2, h3⟩ := ih (fun x hx => h x (by simp [hx]))
    refine ⟨v :: vs, by simp [lookupAll, hv, h1], by simp [h2], ?_⟩
    intro p hp
    rcases List.mem_cons.1 hp with rfl | hp
    · exact hv
    · exact h3 p hp

end Chan
end Verif
