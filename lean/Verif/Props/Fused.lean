/-
Property theorems about `FusedChannelSpec` (C01-C06, C08).
-/
import Mathlib.Tactic.Ring
import Mathlib.Tactic.Linarith
import Mathlib.Tactic.Positivity
import Verif.ConciseLemmas
import Verif.Stride

set_option linter.unusedSimpArgs false
set_option linter.unusedVariables false

namespace Verif.Props
open Verif Verif.Fused

/-- The fused specs a user can obtain: constructed from a code list, a string or an integer, and
closed under the operations of the class. -/
inductive Built : Fused → Prop
  | ofList (l : List Str) : Built ⟨l, false⟩
  | ofStr (s : Str) : Built (parse s)
  | ofInt (n : Nat) : Built (fromInt n)
  | concat (fs : List Fused) : Built (Fused.concat fs)
  | normalize {f g} : Built f → f.normalize = .ok g → Built g
  | noted {f} : Built f → Built f.noteNormalized
  | concise {f g} : Built f → f.concise = .ok g → Built g
  | difference {f g o} : Built f → f.difference o = .ok g → Built g
  | intersection {f g o} : Built f → f.intersection o = .ok g → Built g
  | union {f f' g} : Built f → Built f' → f.union (.spec f') = .ok g → Built g
  | getList {f g is} : Built f → f.getList is = .ok g → Built g
  | getSlice {f g a b} : Built f → f.getSlice a b = .ok g → Built g
  | getStride {f g a b k} : Built f → f.getStride a b k = .ok g → Built g

theorem asList_needs {f : Fused} (hf : FlagSound f) {l : List Str} (h : f.asList = .ok l) :
    ∀ v ∈ l, needsNorm v = false := by
  rw [asList_eq hf] at h; exact normParts_needs h

theorem Built.flagSound {f : Fused} (h : Built f) : FlagSound f := by
  induction h with
  | ofList l => exact flagSound_false l
  | ofStr s => unfold parse; split <;> exact flagSound_false _
  | ofInt n => exact flagSound_false _
  | concat fs => exact flagSound_false _
  | normalize _ hg ih => exact normalize_flagSound ih hg
  | @noted f _ ih =>
    unfold noteNormalized
    split
    · exact ih
    · split
      · exact ih
      · split
        · exact ih
        · next hn => intro _; simpa using hn
  | concise _ hg ih =>
    unfold Fused.concise at hg
    rw [Except.bind_eq_ok'] at hg
    obtain ⟨n, _, hg⟩ := hg
    rw [Except.bind_eq_ok'] at hg
    obtain ⟨st, _, hg⟩ := hg
    cases hg
    exact flagSound_false _
  | difference _ hg ih =>
    unfold Fused.difference at hg
    rw [Except.bind_eq_ok'] at hg
    obtain ⟨st, hst, hg⟩ := hg
    rw [Except.bind_eq_ok'] at hg
    obtain ⟨n, _, hg⟩ := hg
    cases hg
    intro _ v hv
    exact asList_needs ih hst v (mem_oset.1 (List.mem_filter.1 hv).1)
  | intersection _ hg ih =>
    unfold Fused.intersection at hg
    rw [Except.bind_eq_ok'] at hg
    obtain ⟨st, hst, hg⟩ := hg
    rw [Except.bind_eq_ok'] at hg
    obtain ⟨n, _, hg⟩ := hg
    cases hg
    intro _ v hv
    exact asList_needs ih hst v (List.mem_filter.1 hv).1
  | @union f f' g _ _ hg ih ih' =>
    unfold Fused.union Other.norm at hg
    rw [Except.bind_eq_ok'] at hg
    obtain ⟨sn, hsn, hg⟩ := hg
    rw [Except.bind_eq_ok'] at hg
    obtain ⟨on, hon, hg⟩ := hg
    cases hg
    intro _ v hv
    simp only at hon
    split at hon
    · next l hl =>
      cases hon
      rcases (mem_foldl_osetAdd _ _ _).1 hv with hv | hv
      · exact asList_needs ih hsn v (mem_oset.1 hv)
      · exact asList_needs ih' hl v hv
    · cases hon
  | getList _ hg ih =>
    unfold Fused.getList at hg
    rw [Except.bind_eq_ok'] at hg
    obtain ⟨n, _, hg⟩ := hg
    rw [Except.bind_eq_ok'] at hg
    obtain ⟨l, _, hg⟩ := hg
    cases hg
    exact flagSound_false _
  | getSlice _ hg ih =>
    unfold Fused.getSlice at hg
    rw [Except.bind_eq_ok'] at hg
    obtain ⟨n, _, hg⟩ := hg
    cases hg
    exact flagSound_false _
  | getStride _ hg ih =>
    unfold Fused.getStride at hg
    split at hg
    · cases hg
    · split at hg
      · cases hg
      · cases hg; exact flagSound_false _

/-! ### C01 -/

/-- C01: `numel()` is the length of the normalized channel list, and `sum(sizes())` as well;
if one of them raises, all raise the same exception. -/
theorem C01_numel_counts_channels {f : Fused} (h : Built f) :
    f.numel = f.asList.map List.length ∧ f.sizes.map List.sum = f.asList.map List.length := by
  have hf := h.flagSound
  rw [asList_eq hf]
  unfold numel sizes
  split
  · next hn =>
    rw [normParts_of_not_needs (hf hn)]
    simp [Except.map]
  · exact ⟨sizesLoop_sum _, sizesLoop_sum _⟩

example : Built (parse (p! "rgb|m.0:4|x:0:6:2|y.5:1:-2")) ∧
    (parse (p! "rgb|m.0:4|x:0:6:2|y.5:1:-2")).numel = .ok 12 := ⟨.ofStr _, by decide⟩

/-- C01: `sizes()` has an entry for every code, in order: the number of channels of that code. -/
theorem C01_sizes {f : Fused} (h : Built f) {ls : List (List Str)}
    (hl : f.parsed.map (fun v => asList ⟨[v], false⟩) = ls.map .ok) : f.sizes = .ok (ls.map List.length) := by
  have hall : ∀ (ps : List Str) (ls : List (List Str)), ps.map (fun v => asList ⟨[v], false⟩) = ls.map .ok →
      sizesLoop ps = .ok (ls.map List.length) := by
    intro ps
    induction ps with
    | nil =>
      intro ls hl
      cases ls with
      | nil => rfl
      | cons => cases hl
    | cons v vs ih =>
      intro ls hl
      cases ls with
      | nil => cases hl
      | cons l ls =>
        simp only [List.map_cons, List.cons.injEq] at hl
        rw [asList_false] at hl
        have h1 : expandCode v = .ok l := by
          have := hl.1
          simp only [normParts] at this
          cases hx : expandCode v with
          | error e => rw [hx] at this; cases this
          | ok a => rw [hx] at this; simpa using this
        simp [sizesLoop, codeSize_eq, h1, Except.map, ih ls hl.2]
  have hf := h.flagSound
  unfold sizes
  split
  · next hn =>
    have := hall _ _ hl
    have hone : ∀ ps : List Str, (∀ v ∈ ps, needsNorm v = false) →
        sizesLoop ps = .ok (List.replicate ps.length 1) := by
      intro ps hps
      induction ps with
      | nil => rfl
      | cons v vs ih =>
        simp [sizesLoop, codeSize_eq, expandCode_of_not_needs (hps v (by simp)), Except.map,
          ih (fun w hw => hps w (by simp [hw])), List.replicate_succ]
    rw [← hone _ (hf hn), this]
  · exact hall _ _ hl

example : (parse (p! "b1|Z:3|b2|rgb|Z:0")).sizes = .ok [1, 3, 1, 3, 0] := by decide

/-- Flagging a spec as normalized is only sound for specs: passing a raw list of codes to `union`
yields a spec that claims to be normalized although it contains an alias, and `numel` is wrong. -/
theorem C01_union_raw_list_violated :
    ∃ g, (parse (p! "a")).union (.codes [p! "rgb"]) = .ok g ∧
      g.numel = .ok 2 ∧ g.spec = p! "a|rgb" ∧ (parse g.spec).numel = .ok 4 :=
  ⟨⟨[p! "a", p! "rgb"], true⟩, by decide, by decide, by decide, by decide⟩

/-! ### C02 -/

/-- The aliases of the documentation. -/
def AliasSpec : List (Str × List Str) :=
  [(p! "rgb", [p! "r", p! "g", p! "b"]), (p! "rgba", [p! "r", p! "g", p! "b", p! "a"]),
   (p! "dxdy", [p! "dx", p! "dy"]), (p! "fxfy", [p! "fx", p! "fy"])]

theorem needsNorm_false_iff (v : Str) :
    needsNorm v = false ↔ v ∉ AliasSpec.map Prod.fst ∧ ':' ∉ v := by
  simp only [needsNorm, alias?, AliasSpec, Bool.or_eq_false_iff, decide_eq_false_iff_not]
  refine and_congr_left fun _ => ?_
  simp only [List.map_cons, List.map_nil, List.mem_cons, List.not_mem_nil, or_false]
  repeat' split
  all_goals simp_all

/-- C02: the normalized spec contains no alias and no slice code, and is a fixed point of
`normalize`. -/
theorem C02_normalize_idempotent {f g : Fused} (h : Built f) (hg : f.normalize = .ok g) :
    (∀ v ∈ g.parsed, v ∉ AliasSpec.map Prod.fst ∧ ':' ∉ v) ∧
    g.normalize = .ok g ∧ g.asList = f.asList ∧ g.spec = joinWith '|' g.parsed := by
  have hf := h.flagSound
  rw [normalize_eq hf] at hg
  obtain ⟨l, hl, rfl⟩ := Except.map_eq_ok'.1 hg
  refine ⟨fun v hv => (needsNorm_false_iff v).1 (normParts_needs hl v hv), by simp [normalize], ?_, rfl⟩
  rw [asList_eq hf, hl]
  simp [asList, normalize]

/-- C02: codes are expanded independently of each other: normalizing a concatenation is
concatenating the normalizations. -/
theorem C02_normalize_concat (fs : List Fused) (ls : List (List Str)) (h : ∀ f ∈ fs, Built f)
    (hl : fs.map asList = ls.map .ok) : (Fused.concat fs).asList = .ok ls.flatten := by
  unfold Fused.concat
  rw [asList_false]
  induction fs generalizing ls with
  | nil =>
    cases ls with
    | nil => rfl
    | cons _ _ => simp at hl
  | cons f fs ih =>
    cases ls with
    | nil => simp at hl
    | cons l ls =>
      simp only [List.map_cons, List.cons.injEq] at hl
      have := ih ls (fun g hg => h g (by simp [hg])) hl.2
      simp only [List.map_cons, List.flatten_cons, normParts_append, this]
      rw [← asList_eq (h f (by simp)).flagSound, hl.1]
      rfl

/-- C02: meaning of the shorthand.  Aliases expand as documented. -/
theorem C02_alias_meaning : ∀ p ∈ AliasSpec, expandCode p.1 = .ok p.2 := by decide

/-- C02: `root.a:b` stands for the channels `root.a, root.(a+1), ..., root.(b-1)` for all integers. -/
theorem C02_slice_meaning {root : Str} (h1 : '.' ∉ root) (h2 : ':' ∉ root) (a b : Int) :
    asList ⟨[root ++ '.' :: (intStr a ++ ':' :: intStr b)], false⟩ =
      .ok ((List.range (b - a).toNat).map (fun k : Nat => dotted root (a + k))) := by
  rw [asList_false, normParts_single]
  have hc : ':' ∈ root ++ '.' :: (intStr a ++ ':' :: intStr b) := by simp
  unfold expandCode
  rw [alias_none_of_mem hc (.inr rfl)]
  have hs : splitOnce '.' (root ++ '.' :: (intStr a ++ ':' :: intStr b)) =
      some (root, intStr a ++ ':' :: intStr b) := splitOnce_append h1
  have hargs : splitOn ':' (intStr a ++ ':' :: intStr b) = [intStr a, intStr b] := by
    rw [splitOn_append_sep (intStr_not_mem (by simp)),
      splitOn_of_not_mem (intStr_not_mem (by simp))]
  have hsp : sliceParts (root ++ '.' :: (intStr a ++ ':' :: intStr b)) =
      .ok (root, [intStr a, intStr b]) := by
    unfold sliceParts
    simp only [hs, hargs]
    rfl
  have hsa : sliceArgs [intStr a, intStr b] = .ok (a, some b, 1) := by
    simp [sliceArgs, intOr, intOrNone, intStr_ne_nil, pyInt_intStr]
  simp only [hc, if_true, parseSlice, hsp, hsa, Except.ok_bind', h1, h2, or_self, if_false,
    pyRange]
  rw [if_neg (by decide), if_pos (by decide)]
  simp only [Except.ok_bind']
  rw [rangeUp_one (Nat.le_refl _), List.map_map]
  rfl

/-- The values of a `range` with a positive step. -/
theorem rangeUp_values {f : Nat} {a b s : Int} (hs : 0 < s) (hf : (b - a).toNat ≤ f) :
    ∃ n : Nat, rangeUp f a b s = (List.range n).map (fun k : Nat => a + k * s) ∧
      ∀ k : Nat, k < n ↔ a + k * s < b := by
  induction f generalizing a with
  | zero =>
    refine ⟨0, rfl, fun k => ⟨fun h => absurd h (by omega), fun h => ?_⟩⟩
    have : (0 : Int) ≤ k * s := by positivity
    omega
  | succ f ih =>
    unfold rangeUp
    split
    · next h =>
      obtain ⟨n, e, hn⟩ := ih (a := a + s) (by omega)
      refine ⟨n + 1, ?_, ?_⟩
      · rw [e, List.range_succ_eq_map, List.map_cons, List.map_map]
        congr 1
        · simp
        · apply List.map_congr_left
          intro k _
          simp only [Function.comp, Nat.succ_eq_add_one]
          push_cast
          ring
      · intro k
        cases k with
        | zero => simpa using h
        | succ k =>
          rw [Nat.add_lt_add_iff_right, hn k]
          push_cast
          constructor <;> intro h' <;> linarith
    · next h =>
      refine ⟨0, rfl, fun k => ⟨fun h => absurd h (by omega), fun h' => ?_⟩⟩
      have : (0 : Int) ≤ k * s := by positivity
      omega

/-- The values of a `range` with a negative step. -/
theorem rangeDown_values {f : Nat} {a b s : Int} (hs : s < 0) (hf : (a - b).toNat ≤ f) :
    ∃ n : Nat, rangeDown f a b s = (List.range n).map (fun k : Nat => a + k * s) ∧
      ∀ k : Nat, k < n ↔ b < a + k * s := by
  induction f generalizing a with
  | zero =>
    refine ⟨0, rfl, fun k => ⟨fun h => absurd h (by omega), fun h => ?_⟩⟩
    have : (k : Int) * s ≤ 0 := mul_nonpos_of_nonneg_of_nonpos (by positivity) hs.le
    omega
  | succ f ih =>
    unfold rangeDown
    split
    · next h =>
      obtain ⟨n, e, hn⟩ := ih (a := a + s) (by omega)
      refine ⟨n + 1, ?_, ?_⟩
      · rw [e, List.range_succ_eq_map, List.map_cons, List.map_map]
        congr 1
        · simp
        · apply List.map_congr_left
          intro k _
          simp only [Function.comp, Nat.succ_eq_add_one]
          push_cast
          ring
      · intro k
        cases k with
        | zero => simpa using h
        | succ k =>
          rw [Nat.add_lt_add_iff_right, hn k]
          push_cast
          constructor <;> intro h' <;> linarith
    · next h =>
      refine ⟨0, rfl, fun k => ⟨fun h => absurd h (by omega), fun h' => ?_⟩⟩
      have : (k : Int) * s ≤ 0 := mul_nonpos_of_nonneg_of_nonpos (by positivity) hs.le
      omega

/-- The text of an optional number. -/
def optStr : Option Int → Str
  | none => []
  | some i => intStr i

/-- The numbers that a slice stands for. -/
def SliceNumbers (a b s : Int) (l : List Int) : Prop :=
  ∃ n : Nat, l = (List.range n).map (fun k : Nat => a + k * s) ∧
    ∀ k : Nat, k < n ↔ (0 < s ∧ a + k * s < b) ∨ (s < 0 ∧ b < a + k * s)

theorem pyRange_values (a b s : Int) (hs : s ≠ 0) : ∃ l, pyRange a b s = .ok l ∧ SliceNumbers a b s l := by
  unfold pyRange
  rw [if_neg hs]
  split
  · next h =>
    obtain ⟨n, e, hn⟩ := rangeUp_values (a := a) (b := b) h (Nat.le_refl _)
    exact ⟨_, rfl, n, e, fun k => (hn k).trans ⟨fun h' => .inl ⟨h, h'⟩, fun h' => by
      rcases h' with h' | h'
      · exact h'.2
      · omega⟩⟩
  · next h =>
    have h' : s < 0 := by omega
    obtain ⟨n, e, hn⟩ := rangeDown_values (a := a) (b := b) h' (Nat.le_refl _)
    exact ⟨_, rfl, n, e, fun k => (hn k).trans ⟨fun h2 => .inr ⟨h', h2⟩, fun h2 => by
      rcases h2 with h2 | h2
      · omega
      · exact h2.2⟩⟩

theorem asList_slice {v root : Str} {args : List Str} {a b s : Int} (hv : ':' ∈ v) (h1 : '.' ∉ root)
    (h2 : ':' ∉ root) (hp : sliceParts v = .ok (root, args)) (ha : sliceArgs args = .ok (a, some b, s))
    (hs : s ≠ 0) : ∃ l, asList ⟨[v], false⟩ = .ok (l.map (dotted root)) ∧ SliceNumbers a b s l := by
  obtain ⟨l, hl, hn⟩ := pyRange_values a b s hs
  refine ⟨l, ?_, hn⟩
  rw [asList_false, normParts_single]
  unfold expandCode
  rw [alias_none_of_mem hv (.inr rfl)]
  simp only [hv, if_true, parseSlice, hp, ha, Except.ok_bind', h1, h2, or_self, if_false, hl]

theorem optStr_not_mem {i : Option Int} {c : Char} (hc : c = '.' ∨ c = ':' ∨ c = '|' ∨ c = ',') :
    c ∉ optStr i := by
  cases i with
  | none => simp [optStr]
  | some i => exact intStr_not_mem hc

theorem intOr_optStr (d : Int) (i : Option Int) : intOr d (optStr i) = .ok (i.getD d) := by
  cases i with
  | none => simp [optStr, intOr]
  | some i => simp [optStr, intOr, intStr_ne_nil, pyInt_intStr]

/-- C02: the other ways to write a slice.  `root:b` counts from zero; `root.a:b:s` and `root:a:b:s` step by
`s`, where `a` is zero if it is left out and `s` is one if it is left out, for all integers. -/
theorem C02_slice_forms {root : Str} (h1 : '.' ∉ root) (h2 : ':' ∉ root) (a s : Option Int) (b : Int)
    (hs : s.getD 1 ≠ 0) (sep : Char) (hsep : sep = '.' ∨ sep = ':') :
    (∃ l, asList ⟨[root ++ ':' :: intStr b], false⟩ = .ok (l.map (dotted root)) ∧ SliceNumbers 0 b 1 l) ∧
    (∃ l, asList ⟨[root ++ sep :: (optStr a ++ ':' :: intStr b)], false⟩ = .ok (l.map (dotted root)) ∧
      SliceNumbers (a.getD 0) b 1 l) ∧
    (∃ l, asList ⟨[root ++ sep :: (optStr a ++ ':' :: (intStr b ++ ':' :: optStr s))], false⟩ =
        .ok (l.map (dotted root)) ∧ SliceNumbers (a.getD 0) b (s.getD 1) l) := by
  have nd : ∀ c, c ∉ root → ∀ (t : Str) (c' : Char), c ≠ c' → c ∉ t → c ∉ root ++ c' :: t := by
    intro c hc t c' hcc ht
    simp [hc, hcc, ht]
  have hone : ∀ t : Str, '.' ∉ t → splitOnce '.' (root ++ ':' :: t) = none := by
    intro t ht
    cases hx : splitOnce '.' (root ++ ':' :: t) with
    | none => rfl
    | some p => exact absurd (splitOnce_isSome_iff.1 (by rw [hx]; rfl)) (nd '.' h1 t ':' (by decide) ht)
  have hparts : ∀ t : Str, '.' ∉ t → (splitOn ':' t).length > 1 →
      sliceParts (root ++ sep :: t) = .ok (root, splitOn ':' t) := by
    intro t ht hl
    unfold sliceParts
    rcases hsep with rfl | rfl
    · rw [splitOnce_append h1]
      simp only
      rw [if_neg (by omega)]
    · rw [hone t ht, splitOnce_append h2]
  have d1 : ∀ i : Option Int, '.' ∉ optStr i := fun i => optStr_not_mem (by simp)
  have d2 : ∀ i : Option Int, ':' ∉ optStr i := fun i => optStr_not_mem (by simp)
  have e1 : '.' ∉ intStr b := intStr_not_mem (by simp)
  have e2 : ':' ∉ intStr b := intStr_not_mem (by simp)
  refine ⟨?_, ?_, ?_⟩
  · refine asList_slice (args := [intStr b]) (by simp) h1 h2 ?_ ?_ (by decide)
    · unfold sliceParts
      rw [hone _ e1, splitOnce_append h2]
      simp only [splitOn_of_not_mem e2]
    · simp [sliceArgs, pyInt_intStr]
  · have hsp : splitOn ':' (optStr a ++ ':' :: intStr b) = [optStr a, intStr b] := by
      rw [splitOn_append_sep (d2 a), splitOn_of_not_mem e2]
    refine asList_slice (args := [optStr a, intStr b]) (by simp) h1 h2 ?_ ?_ (by decide)
    · rw [hparts _ (by simp [d1 a, e1]) (by rw [hsp]; simp), hsp]
    · simp [sliceArgs, intOr_optStr, intOrNone, intStr_ne_nil, pyInt_intStr]
  · have hsp : splitOn ':' (optStr a ++ ':' :: (intStr b ++ ':' :: optStr s)) =
        [optStr a, intStr b, optStr s] := by
      rw [splitOn_append_sep (d2 a), splitOn_append_sep e2, splitOn_of_not_mem (d2 s)]
    refine asList_slice (args := [optStr a, intStr b, optStr s]) (by simp) h1 h2 ?_ ?_ hs
    · rw [hparts _ (by simp [d1 a, e1, d1 s]) (by rw [hsp]; simp), hsp]
    · simp [sliceArgs, intOr_optStr, intOrNone, intStr_ne_nil, pyInt_intStr]

/-- C02: a slice without a stop, with the step zero or with a root that has a dot or a colon is refused. -/
theorem C02_refused {root : Str} (h1 : '.' ∉ root) (h2 : ':' ∉ root) (a : Option Int) (b : Int) (sep : Char)
    (hsep : sep = '.' ∨ sep = ':') :
    asList ⟨[root ++ sep :: (optStr a ++ [':'])], false⟩ = .error .valueError ∧
    asList ⟨[root ++ sep :: (optStr a ++ ':' :: (intStr b ++ ':' :: intStr 0))], false⟩ = .error .valueError ∧
    asList ⟨[root ++ ':' :: (root ++ '.' :: intStr b)], false⟩ = .error .valueError := by
  have nd : ∀ c, c ∉ root → ∀ (t : Str) (c' : Char), c ≠ c' → c ∉ t → c ∉ root ++ c' :: t := by
    intro c hc t c' hcc ht
    simp [hc, hcc, ht]
  have hone : ∀ t : Str, '.' ∉ t → splitOnce '.' (root ++ ':' :: t) = none := by
    intro t ht
    cases hx : splitOnce '.' (root ++ ':' :: t) with
    | none => rfl
    | some p => exact absurd (splitOnce_isSome_iff.1 (by rw [hx]; rfl)) (nd '.' h1 t ':' (by decide) ht)
  have hparts : ∀ t : Str, '.' ∉ t → (splitOn ':' t).length > 1 →
      sliceParts (root ++ sep :: t) = .ok (root, splitOn ':' t) := by
    intro t ht hl
    unfold sliceParts
    rcases hsep with rfl | rfl
    · rw [splitOnce_append h1]
      simp only
      rw [if_neg (by omega)]
    · rw [hone t ht, splitOnce_append h2]
  have d1 : ∀ i : Option Int, '.' ∉ optStr i := fun i => optStr_not_mem (by simp)
  have d2 : ∀ i : Option Int, ':' ∉ optStr i := fun i => optStr_not_mem (by simp)
  have e1 : ∀ b, '.' ∉ intStr b := fun b => intStr_not_mem (by simp)
  have e2 : ∀ b, ':' ∉ intStr b := fun b => intStr_not_mem (by simp)
  have refused : ∀ v : Str, ':' ∈ v → parseSlice v = .error .valueError →
      asList ⟨[v], false⟩ = .error .valueError := by
    intro v hv hp
    rw [asList_false, normParts_single]
    unfold expandCode
    rw [alias_none_of_mem hv (.inr rfl)]
    simp only [hv, if_true, hp]
    rfl
  refine ⟨?_, ?_, ?_⟩
  · have hsp : splitOn ':' (optStr a ++ [':']) = [optStr a, []] := by
      rw [splitOn_append_sep (d2 a)]
      rfl
    refine refused _ (by simp) ?_
    unfold parseSlice
    rw [hparts _ (by simp [d1 a]) (by rw [hsp]; simp), hsp]
    simp [sliceArgs, intOr_optStr, intOrNone]
  · have hsp : splitOn ':' (optStr a ++ ':' :: (intStr b ++ ':' :: intStr 0)) =
        [optStr a, intStr b, intStr 0] := by
      rw [splitOn_append_sep (d2 a), splitOn_append_sep (e2 b), splitOn_of_not_mem (e2 0)]
    have hv : ':' ∈ root ++ sep :: (optStr a ++ ':' :: (intStr b ++ ':' :: intStr 0)) := by simp
    rw [asList_false, normParts_single]
    unfold expandCode
    rw [alias_none_of_mem hv (.inr rfl)]
    simp only [hv, if_true, parseSlice]
    rw [hparts _ (by simp [d1 a, e1]) (by rw [hsp]; simp), hsp]
    have hi := intOr_optStr 0 a
    simp [sliceArgs, hi, intOrNone, intStr_ne_nil, pyInt_intStr, h1, h2, pyRange, intOr]
    simp only [intOr] at hi
    rw [hi]
    rfl
  · refine refused _ (by simp) ?_
    unfold parseSlice sliceParts
    have : splitOnce '.' (root ++ ':' :: (root ++ '.' :: intStr b)) = some (root ++ ':' :: root, intStr b) := by
      have := splitOnce_append (c := '.') (s := root ++ ':' :: root) (t := intStr b) (by simp [h1])
      simpa using this
    rw [this]
    simp [splitOn_of_not_mem (e2 b)]

theorem bind_only {α β : Type} {x : Py α} {f : α → Py β} {e : PyErr} (h : x >>= f = .error e)
    (hx : ∀ {e}, x = .error e → e = .valueError) (hf : ∀ {a e}, f a = .error e → e = .valueError) :
    e = .valueError := by
  cases x with
  | error e' => exact hx (by cases h; rfl)
  | ok a => exact hf (a := a) h

theorem pyInt_only {s : Str} {e : PyErr} (h : pyInt s = .error e) : e = .valueError := by
  unfold pyInt at h
  split at h <;> split at h <;> cases h <;> rfl

theorem intOr_only {d : Int} {s : Str} {e : PyErr} (h : intOr d s = .error e) : e = .valueError := by
  unfold intOr at h
  split at h
  · cases h
  · exact pyInt_only h

theorem intOrNone_only {s : Str} {e : PyErr} (h : intOrNone s = .error e) : e = .valueError := by
  unfold intOrNone at h
  split at h
  · cases h
  · cases hp : pyInt s with
    | ok a => rw [hp] at h; cases h
    | error e' =>
      rw [hp] at h
      cases h
      exact pyInt_only hp

theorem parseSlice_only {v : Str} {e : PyErr} (h : parseSlice v = .error e) : e = .valueError := by
  unfold parseSlice at h
  refine bind_only h ?_ ?_
  · intro e h
    unfold sliceParts at h
    split at h
    · simp only at h
      split at h
      · cases h; rfl
      · cases h
    · split at h
      · cases h
      · cases h; rfl
  · rintro ⟨root, args⟩ e h
    refine bind_only h ?_ ?_
    · intro e h
      unfold sliceArgs at h
      split at h
      · exact bind_only h pyInt_only (fun h => by cases h)
      · exact bind_only h intOr_only (fun h => bind_only h intOrNone_only (fun h => by cases h))
      · exact bind_only h intOr_only
          (fun h => bind_only h intOrNone_only (fun h => bind_only h intOr_only (fun h => by cases h)))
      · cases h; rfl
    · rintro ⟨start, stop?, step⟩ e h
      simp only at h
      split at h
      · cases h; rfl
      · split at h
        · cases h; rfl
        · cases h

/-- C02: what cannot be expanded raises `ValueError`, and nothing else is raised. -/
theorem C02_only_value_errors {f : Fused} {e : PyErr} (h : asList f = .error e) : e = .valueError := by
  have parts : ∀ (l : List Str) {e : PyErr}, normParts l = .error e → e = .valueError := by
    intro l
    induction l with
    | nil => intro e h; cases h
    | cons v vs ih =>
      intro e h
      refine bind_only h ?_ (fun h => bind_only h ih (fun h => by cases h))
      intro e h
      unfold expandCode at h
      split at h
      · cases h
      · split at h
        · refine bind_only h parseSlice_only ?_
          rintro ⟨r, a, b, s⟩ e h
          refine bind_only h ?_ (fun h => by cases h)
          intro e h
          unfold pyRange at h
          split at h
          · cases h; rfl
          · split at h <;> cases h
        · cases h
  unfold asList normalize at h
  refine bind_only h ?_ (fun h => by cases h)
  intro e h
  split at h
  · cases h
  · exact bind_only h (parts _) (fun h => by split at h <;> cases h)

example : (parse (p! "a:b.1:2")).asList = .error .valueError := by decide

example : (parse (p! "m:3|m.7:2:-2|q::2")).asList =
    .ok [p! "m.0", p! "m.1", p! "m.2", p! "m.7", p! "m.5", p! "m.3", p! "q.0", p! "q.1"] := by decide

example : (parse (p! "rgb|m.2:4|z")).asList =
    .ok [p! "r", p! "g", p! "b", p! "m.2", p! "m.3", p! "z"] := by decide

/-! ### C03 -/

/-- A code whose text is preserved by `concise`: no dot, or one dot followed by an integer in
canonical decimal form. -/
def CanonicalCode (c : Str) : Prop := '.' ∉ c ∨ ∃ r i, '.' ∉ r ∧ c = dotted r i

theorem respellAll_canonical {l : List Str} (h : ∀ c ∈ l, CanonicalCode c) :
    respellAll l = .ok l := by
  induction l with
  | nil => rfl
  | cons p ps ih =>
    have hp : respell p = .ok p := by
      rcases h p (by simp) with h | ⟨r, i, hr, rfl⟩
      · exact respell_of_no_dot h
      · exact respell_dotted hr i
    simp [respellAll, hp, ih (fun c hc => h c (by simp [hc]))]

/-- C03: `concise()` succeeds and is lossless on every spec whose normalized codes are canonical. -/
theorem C03_concise_lossless {f : Fused} (h : Built f) {l : List Str} (hl : f.asList = .ok l)
    (hc : ∀ c ∈ l, CanonicalCode c) : ∃ g, f.concise = .ok g ∧ g.asList = .ok l := by
  have hf := h.flagSound
  have hn := hl
  rw [asList_eq hf] at hn
  have hnorm : f.normalize = .ok ⟨l, true⟩ := by rw [normalize_eq hf, hn]; rfl
  unfold Fused.concise
  rw [hnorm]
  simp only [Except.ok_bind']
  cases hst : conciseLoop ⟨[], none⟩ l with
  | error e =>
    have := (conciseLoop_error _ _ _).1 hst
    rw [respellAll_canonical hc] at this
    cases this
  | ok st =>
    refine ⟨_, rfl, ?_⟩
    obtain ⟨hok, qs, done, hqs, hd, he⟩ :=
      conciseLoop_spec (st := ⟨[], none⟩) (done := []) (normParts_needs hn) trivial rfl hst
    rw [asList_false, normParts_flush hok hd, he]
    rw [respellAll_canonical hc] at hqs
    cases hqs
    simp [accCodes]

/-- C03, without the canonical spelling hypothesis: `concise()` raises iff some dotted code has no
integer suffix, and otherwise only re-spells the integer suffixes. -/
theorem C03_concise_general {f : Fused} (h : Built f) {l : List Str} (hl : f.asList = .ok l) :
    (∀ e, f.concise = .error e ↔ respellAll l = .error e) ∧
    (∀ g, f.concise = .ok g → ∃ l', respellAll l = .ok l' ∧ g.asList = .ok l' ∧ l'.length = l.length) := by
  have hf := h.flagSound
  have hn := hl
  rw [asList_eq hf] at hn
  have hnorm : f.normalize = .ok ⟨l, true⟩ := by rw [normalize_eq hf, hn]; rfl
  unfold Fused.concise
  rw [hnorm]
  simp only [Except.ok_bind']
  constructor
  · intro e
    rw [← conciseLoop_error ⟨[], none⟩]
    cases conciseLoop ⟨[], none⟩ l <;> simp
  · intro g hg
    rw [Except.bind_eq_ok'] at hg
    obtain ⟨st, hst, hg⟩ := hg
    cases hg
    obtain ⟨hok, qs, done, hqs, hd, he⟩ :=
      conciseLoop_spec (st := ⟨[], none⟩) (done := []) (normParts_needs hn) trivial rfl hst
    refine ⟨qs, hqs, ?_, ?_⟩
    · rw [asList_false, normParts_flush hok hd, he]; simp [accCodes]
    · clear hst hd he hok hnorm hn hl
      induction l generalizing qs with
      | nil => cases hqs; rfl
      | cons p ps ih =>
        simp only [respellAll] at hqs
        rw [Except.bind_eq_ok'] at hqs
        obtain ⟨q, hq, hqs⟩ := hqs
        rw [Except.bind_eq_ok'] at hqs
        obtain ⟨qs', hqs', hqs⟩ := hqs
        cases hqs
        simp [ih qs' hqs']

/-- C03: `concise` is idempotent. -/
theorem C03_concise_idempotent {f g : Fused} (h : Built f) (hg : f.concise = .ok g) :
    g.concise = .ok g := by
  have hf := h.flagSound
  cases hl : f.asList with
  | error e =>
    unfold Fused.concise at hg
    unfold asList at hl
    cases hn : f.normalize with
    | error _ => rw [hn] at hg; cases hg
    | ok n => rw [hn] at hl; cases hl
  | ok l =>
    obtain ⟨l', hr, hgl, _⟩ := (C03_concise_general h hl).2 g hg
    have hgf : FlagSound g := (Built.concise h hg).flagSound
    rw [asList_eq hf] at hl
    have hnorm : f.normalize = .ok ⟨l, true⟩ := by rw [normalize_eq hf, hl]; rfl
    rw [asList_eq hgf] at hgl
    have hgnorm : g.normalize = .ok ⟨l', true⟩ := by rw [normalize_eq hgf, hgl]; rfl
    unfold Fused.concise at hg ⊢
    rw [hnorm] at hg
    rw [hgnorm]
    simp only [Except.ok_bind'] at hg ⊢
    rw [conciseLoop_respell _ hr]
    exact hg

example : (parse (p! "a|b.0|b.1|b.2|c.-1|c.0|b.7|b.8|d.3")).concise =
    .ok ⟨[p! "a", p! "b:3", p! "c.-1:1", p! "b.7:9", p! "d.3"], false⟩ := by decide

example : ∀ c ∈ [p! "a", p! "b.0", p! "b.1", p! "c.-1"], CanonicalCode c := by
  intro c hc
  simp only [List.mem_cons, List.not_mem_nil, or_false] at hc
  rcases hc with rfl | rfl | rfl | rfl
  · exact .inl (by decide)
  · exact .inr ⟨p! "b", 0, by decide, by decide⟩
  · exact .inr ⟨p! "b", 1, by decide, by decide⟩
  · exact .inr ⟨p! "c", -1, by decide, by decide⟩

/-- C03 fails without canonical spelling: `a.01` becomes `a.1`, a different channel name. -/
theorem C03_noncanonical_violated :
    ∃ g, (parse (p! "a.01")).concise = .ok g ∧ (parse (p! "a.01")).asList = .ok [p! "a.01"] ∧
      g.asList = .ok [p! "a.1"] := ⟨⟨[p! "a.1"], false⟩, by decide, by decide, by decide⟩

/-- C03: `concise` raises on a legal channel name with a non-integer suffix. -/
theorem C03_concise_raises : (parse (p! "band.raw")).concise = .error .valueError ∧
    (parse (p! "a.b.0")).concise = .error .valueError ∧
    (parse (p! "band.raw")).asList = .ok [p! "band.raw"] := ⟨by decide, by decide, by decide⟩

/-! ### C04 -/

/-- `r` is the list of the distinct elements of `l` satisfying `P`, ordered by first occurrence. -/
def DistinctInOrder {α : Type} [DecidableEq α] (l : List α) (P : α → Prop) (r : List α) : Prop :=
  r.Nodup ∧ (∀ c, c ∈ r ↔ c ∈ l ∧ P c) ∧ r.Pairwise (fun x y => l.idxOf x < l.idxOf y)

theorem osetSubset_iff {a b : List Str} (ha : a.Nodup) : osetSubset a b = true ↔ ∀ c ∈ a, c ∈ b := by
  unfold osetSubset
  split
  · rename_i h
    simp only [Bool.false_eq_true, false_iff]
    intro hs
    have := (List.subperm_of_subset ha hs).length_le
    omega
  · simp

theorem osetSuperset_iff {a b : List Str} (hb : b.Nodup) : osetSuperset a b = true ↔ ∀ c ∈ b, c ∈ a := by
  unfold osetSuperset
  split
  · rename_i h
    simp only [Bool.false_eq_true, false_iff]
    intro hs
    have := (List.subperm_of_subset hb hs).length_le
    omega
  · simp

/-- C04: set operations of two specs. -/
theorem C04_set_operations {f o : Fused} (hf : Built f) (ho : Built o) {l m : List Str}
    (hl : f.asList = .ok l) (hm : o.asList = .ok m) :
    (∃ u, f.union (.spec o) = .ok u ∧ u.asList = .ok u.parsed ∧
      DistinctInOrder (l ++ m) (fun _ => True) u.parsed) ∧
    (∃ d, f.difference (.spec o) = .ok d ∧ d.asList = .ok d.parsed ∧
      DistinctInOrder l (fun c => c ∉ m) d.parsed) ∧
    (∃ i, f.intersection (.spec o) = .ok i ∧ i.asList = .ok i.parsed ∧
      (∀ c, c ∈ i.parsed ↔ c ∈ l ∧ c ∈ m) ∧ i.parsed.Sublist l ∧
      (∀ c, c ∈ m → i.parsed.count c = l.count c)) ∧
    (∃ b, f.issubset (.spec o) = .ok b ∧ (b = true ↔ ∀ c ∈ l, c ∈ m)) ∧
    (∃ b, f.issuperset (.spec o) = .ok b ∧ (b = true ↔ ∀ c ∈ m, c ∈ l)) := by
  have hon : Other.norm (.spec o) = .ok m := by simp [Other.norm, hm]
  refine ⟨?_, ?_, ?_, ?_, ?_⟩
  · refine ⟨⟨m.foldl osetAdd (oset l), true⟩, by simp [Fused.union, hon, hl], by simp [asList, normalize], ?_⟩
    rw [← oset_append]
    exact ⟨nodup_oset _, fun c => by simp [mem_oset], pairwise_oset _⟩
  · refine ⟨⟨(oset l).filter (fun c => decide ¬c ∈ m), true⟩, by simp only [Fused.difference, hon, hl, Except.ok_bind'], by simp [asList, normalize], ?_⟩
    refine ⟨(nodup_oset l).filter _, fun c => by simp [mem_oset], (pairwise_oset l).filter _⟩
  · refine ⟨⟨l.filter (fun c => decide (c ∈ m)), true⟩, by simp only [Fused.intersection, Other.normIter, hm, hl, Except.ok_bind'], by simp [asList, normalize], ?_, List.filter_sublist, ?_⟩
    · intro c; simp
    · intro c hc; rw [List.count_filter]; simpa using hc
  · refine ⟨osetSubset (oset l) (oset m), by simp only [Fused.issubset, hm, hl, Except.ok_bind'], ?_⟩
    rw [osetSubset_iff (nodup_oset l)]
    simp [mem_oset]
  · refine ⟨osetSuperset (oset l) (oset m), by simp only [Fused.issuperset, hm, hl, Except.ok_bind'], ?_⟩
    rw [osetSuperset_iff (nodup_oset m)]
    simp [mem_oset]

/-- C04: the same with a list of codes instead of a second spec; the superset test needs distinct codes. -/
theorem C04_plain_codes_partial {f : Fused} (m : List Str) {l : List Str} (hl : f.asList = .ok l) :
    (∃ u, f.union (.codes m) = .ok u ∧ u.asList = .ok u.parsed ∧
      DistinctInOrder (l ++ m) (fun _ => True) u.parsed) ∧
    (∃ d, f.difference (.codes m) = .ok d ∧ d.asList = .ok d.parsed ∧
      DistinctInOrder l (fun c => c ∉ m) d.parsed) ∧
    (∃ i, f.intersection (.codes m) = .ok i ∧ i.asList = .ok i.parsed ∧
      (∀ c, c ∈ i.parsed ↔ c ∈ l ∧ c ∈ m) ∧ i.parsed.Sublist l ∧
      (∀ c, c ∈ m → i.parsed.count c = l.count c)) ∧
    (∃ b, f.issubset (.codes m) = .ok b ∧ (b = true ↔ ∀ c ∈ l, c ∈ m)) ∧
    (∃ b, f.issuperset (.codes m) = .ok b ∧ (m.Nodup → (b = true ↔ ∀ c ∈ m, c ∈ l))) := by
  refine ⟨?_, ?_, ?_, ?_, ?_⟩
  · refine ⟨⟨m.foldl osetAdd (oset l), true⟩, by simp [Fused.union, Other.norm, hl], by simp [asList, normalize], ?_⟩
    rw [← oset_append]
    exact ⟨nodup_oset _, fun c => by simp [mem_oset], pairwise_oset _⟩
  · refine ⟨⟨(oset l).filter (fun c => decide ¬c ∈ m), true⟩, by simp only [Fused.difference, Other.norm, hl, Except.ok_bind'], by simp [asList, normalize], ?_⟩
    refine ⟨(nodup_oset l).filter _, fun c => by simp [mem_oset], (pairwise_oset l).filter _⟩
  · refine ⟨⟨l.filter (fun c => decide (c ∈ m)), true⟩, by simp only [Fused.intersection, Other.normIter, hl, Except.ok_bind'], by simp [asList, normalize], ?_, List.filter_sublist, ?_⟩
    · intro c; simp
    · intro c hc; rw [List.count_filter]; simpa using hc
  · refine ⟨osetSubset (oset l) m, by simp only [Fused.issubset, hl, Except.ok_bind'], ?_⟩
    rw [osetSubset_iff (nodup_oset l)]
    simp [mem_oset]
  · refine ⟨osetSuperset (oset l) m, by simp only [Fused.issuperset, hl, Except.ok_bind'], fun hm => ?_⟩
    rw [osetSuperset_iff hm]
    simp [mem_oset]

/-- C04, what fails with repeated codes: a list that is longer than the spec is refused before it is looked at. -/
theorem C04_repeated_codes_violated : (parse (p! "a")).asList = .ok [p! "a"] ∧
    (parse (p! "a")).issuperset (.codes [p! "a", p! "a"]) = .ok false := ⟨by decide, by decide⟩

/-- C04 with a second spec that can not be expanded: `union` and `difference` raise `TypeError` and `intersection`
the exception of the expansion; `issubset` raises nothing and compares with the codes as they are written;
`issuperset` is false for a longer spec and raises otherwise. -/
theorem C04_malformed {f o : Fused} {l : List Str} {e : PyErr} (hl : f.asList = .ok l) (ho : o.asList = .error e) :
    f.union (.spec o) = .error .typeError ∧ f.difference (.spec o) = .error .typeError ∧
    f.intersection (.spec o) = .error e ∧
    (∃ b, f.issubset (.spec o) = .ok b ∧ (b = true ↔ ∀ c ∈ l, c ∈ o.parsed)) ∧
    (∀ r : List Str, r.Nodup → (∀ c, c ∈ r ↔ c ∈ l) →
      f.issuperset (.spec o) = if r.length < o.parsed.length then .ok false else .error e) := by
  refine ⟨?_, ?_, ?_, ?_, ?_⟩
  · simp [Fused.union, Other.norm, hl, ho, bind, Except.bind]
  · simp [Fused.difference, Other.norm, hl, ho, bind, Except.bind]
  · simp [Fused.intersection, Other.normIter, hl, ho, bind, Except.bind]
  · refine ⟨osetSubset (oset l) o.parsed, by simp only [Fused.issubset, hl, ho, Except.ok_bind'], ?_⟩
    rw [osetSubset_iff (nodup_oset l)]
    simp [mem_oset]
  · intro r hr hc
    have : r.length = (oset l).length :=
      ((List.perm_ext_iff_of_nodup hr (nodup_oset l)).2 fun c => by rw [hc, mem_oset]).length_eq
    simp only [Fused.issuperset, hl, ho, Except.ok_bind', this]

/-- C04: operations on a spec that can not be expanded raise its exception, whatever the other one is. -/
theorem C04_malformed_self {f : Fused} {e : PyErr} (hf : f.asList = .error e) (o : Other) :
    f.union o = .error e ∧ f.difference o = .error e ∧ f.intersection o = .error e ∧
    f.issubset o = .error e ∧ f.issuperset o = .error e := by
  simp [Fused.union, Fused.difference, Fused.intersection, Fused.issubset, Fused.issuperset, hf, bind, Except.bind]

example : (parse (p! "a")).asList = .ok [p! "a"] ∧ (parse (p! "a|b:")).asList = .error .valueError ∧
    (parse (p! "a")).issubset (.spec (parse (p! "a|b:"))) = .ok true ∧
    (parse (p! "a")).issuperset (.spec (parse (p! "a|b:"))) = .ok false ∧
    (parse (p! "b:")).union (.spec (parse (p! "b:"))) = .error .valueError :=
  ⟨by decide, by decide, by decide, by decide, by decide⟩

example : (parse (p! "rgb|m:2")).difference (.spec (parse (p! "g|m.1"))) =
    .ok ⟨[p! "r", p! "b", p! "m.0"], true⟩ ∧
    (parse (p! "rgb")).union (.spec (parse (p! "b|x"))) =
    .ok ⟨[p! "r", p! "g", p! "b", p! "x"], true⟩ := ⟨by decide, by decide⟩

/-! ### C05 -/

/-- C05: `coerce(s).spec == s` for every string. -/
theorem C05_spec_roundtrip (s : Str) : (parse s).spec = s := by
  unfold parse spec
  split
  · next h => simp [h, joinWith]
  · exact join_splitOn '|' s

/-- C05: joining pipe-free codes and parsing the string gives the codes back. -/
theorem C05_codes_roundtrip (codes : List Str) (h : ∀ c ∈ codes, '|' ∉ c) (h2 : codes ≠ [[]]) :
    (parse (joinWith '|' codes)).parsed = codes := by
  unfold parse
  split
  · next he =>
    cases codes with
    | nil => rfl
    | cons c cs =>
      cases cs with
      | nil => simp [joinWith] at he; simp [he] at h2
      | cons c' cs => simp [joinWith] at he
  · next he =>
    apply splitOn_join _ h
    intro e; subst e; exact he rfl

example : (parse (p! "a|b.0|c:3")).parsed = [p! "a", p! "b.0", p! "c:3"] := by decide

/-! ### C06 -/

/-- Python's meaning of a slice bound: negative counts from the end, then clamp to `[0, n]`. -/
def BoundSpec (n : Nat) (i : Option Int) (default : Int) : Int :=
  match i with
  | none => default
  | some i => max 0 (min n (if i < 0 then i + n else i))

theorem pyIndex_ok {α} {l : List α} {i : Int} {x : α} (h : pyIndex l i = .ok x) : x ∈ l := by
  unfold pyIndex at h
  revert h
  generalize (if i < 0 then i + (l.length : Int) else i) = j
  intro h
  simp only at h
  split at h
  · cases h
  · split at h
    · next heq => cases h; exact List.mem_of_getElem? heq
    · cases h

theorem pyIndex_spec {α} (l : List α) (i : Int) :
    (∀ k : Nat, (hk : k < l.length) → (i = k ∨ i = (k : Int) - l.length) → pyIndex l i = .ok l[k]) ∧
    (i < -l.length ∨ (l.length : Int) ≤ i → pyIndex l i = .error .indexError) := by
  constructor
  · intro k hk h
    have e : (if i < 0 then i + (l.length : Int) else i) = k := by split <;> omega
    unfold pyIndex
    simp only [e]
    rw [if_neg (by omega)]
    simp [hk]
  · intro h
    have e : (if i < 0 then i + (l.length : Int) else i) < 0 ∨
        l.length ≤ (if i < 0 then i + (l.length : Int) else i).toNat := by
      split <;> omega
    unfold pyIndex
    revert e
    generalize (if i < 0 then i + (l.length : Int) else i) = j
    intro e
    simp only
    by_cases hj : j < 0
    · rw [if_pos hj]
    · rw [if_neg hj, List.getElem?_eq_none (by omega)]

theorem pySlice_spec {α} (l : List α) (a b : Option Int) (k : Nat) :
    (pySlice l a b)[k]? =
      if BoundSpec l.length a 0 + k < BoundSpec l.length b l.length
      then l[(BoundSpec l.length a 0).toNat + k]? else none := by
  have hcl : ∀ (n : Nat) (i : Int), (clampIdx n i : Int) = max 0 (min (n : Int) (if i < 0 then i + n else i)) := by
    intro n i
    unfold clampIdx
    split <;> omega
  have key : ∀ lo hi : Nat, ((l.take hi).drop lo)[k]? =
      if (lo : Int) + k < hi then l[lo + k]? else none := by
    intro lo hi
    rw [List.getElem?_drop]
    by_cases h : lo + k < hi
    · rw [List.getElem?_take_of_lt h, if_pos (by omega)]
    · rw [if_neg (by omega)]
      apply List.getElem?_eq_none
      simp
      omega
  unfold pySlice
  simp only
  rw [key]
  cases a <;> cases b <;> simp [BoundSpec, hcl] <;> congr 2 <;> rw [← hcl] <;> simp

/-- C06: `spec[i]`. -/
theorem C06_getitem_int {f : Fused} (h : Built f) {l : List Str} (hl : f.asList = .ok l) (i : Int) :
    (∀ k : Nat, (hk : k < l.length) → (i = k ∨ i = (k : Int) - l.length) → f.getInt i = .ok l[k]) ∧
    (i < -l.length ∨ (l.length : Int) ≤ i → f.getInt i = .error .indexError) := by
  have hf := h.flagSound
  rw [asList_eq hf] at hl
  have hnorm : f.normalize = .ok ⟨l, true⟩ := by rw [normalize_eq hf, hl]; rfl
  simpa only [getInt, hnorm, Except.ok_bind'] using pyIndex_spec l i

theorem pyTake_spec {α} {l : List α} {is : List Int} {r : List α} (h : pyTake l is = .ok r) :
    r.length = is.length ∧ (∀ x ∈ r, x ∈ l) ∧
      ∀ k, (h1 : k < r.length) → (h2 : k < is.length) → pyIndex l is[k] = .ok r[k] := by
  induction is generalizing r with
  | nil => cases h; simp
  | cons i is ih =>
    simp only [pyTake] at h
    rw [Except.bind_eq_ok'] at h
    obtain ⟨x, hx, h⟩ := h
    rw [Except.bind_eq_ok'] at h
    obtain ⟨xs, hxs, h⟩ := h
    cases h
    obtain ⟨h1, h2, h3⟩ := ih hxs
    refine ⟨by simp [h1], ?_, ?_⟩
    · intro y hy
      rcases List.mem_cons.1 hy with rfl | hy
      · exact pyIndex_ok hx
      · exact h2 y hy
    · intro k hk1 hk2
      cases k with
      | zero => simpa using hx
      | succ k => simpa using h3 k (by simpa using hk1) (by simpa using hk2)

/-- C06: `spec[indices]` lists the selected channels in order; its `numel` is the number of
indices. -/
theorem C06_getitem_list {f g : Fused} (h : Built f) {l : List Str} (hl : f.asList = .ok l)
    {is : List Int} (hg : f.getList is = .ok g) :
    g.asList = .ok g.parsed ∧ g.numel = .ok is.length ∧ g.parsed.length = is.length ∧
    ∀ k, (h1 : k < g.parsed.length) → (h2 : k < is.length) → f.getInt is[k] = .ok g.parsed[k] := by
  have hB := Built.getList h hg
  have hf := h.flagSound
  have hneeds := asList_needs hf hl
  rw [asList_eq hf] at hl
  have hnorm : f.normalize = .ok ⟨l, true⟩ := by rw [normalize_eq hf, hl]; rfl
  simp only [Fused.getList, hnorm, Except.ok_bind'] at hg
  rw [Except.bind_eq_ok'] at hg
  obtain ⟨r, hr, hg⟩ := hg
  cases hg
  obtain ⟨h1, h2, h3⟩ := pyTake_spec hr
  have hlist : asList ⟨r, false⟩ = .ok r := by
    rw [asList_false]
    exact normParts_of_not_needs (fun v hv => hneeds v (h2 v hv))
  refine ⟨hlist, ?_, h1, ?_⟩
  · rw [(C01_numel_counts_channels hB).1, hlist]; simp [h1]
  · intro k hk1 hk2
    simp only [getInt, hnorm, Except.ok_bind']
    exact h3 k hk1 hk2

/-- C06: `spec[a:b]` is the python slice of the normalized channels. -/
theorem C06_getitem_slice {f : Fused} (h : Built f) {l : List Str} (hl : f.asList = .ok l)
    (a b : Option Int) :
    ∃ g, f.getSlice a b = .ok g ∧ g.asList = .ok g.parsed ∧
      ∀ k : Nat, g.parsed[k]? =
        if BoundSpec l.length a 0 + k < BoundSpec l.length b l.length
        then l[(BoundSpec l.length a 0).toNat + k]? else none := by
  have hf := h.flagSound
  have hneeds := asList_needs hf hl
  rw [asList_eq hf] at hl
  have hnorm : f.normalize = .ok ⟨l, true⟩ := by rw [normalize_eq hf, hl]; rfl
  refine ⟨⟨pySlice l a b, false⟩, by simp [Fused.getSlice, hnorm], ?_, pySlice_spec l a b⟩
  rw [asList_false]
  apply normParts_of_not_needs
  intro v hv
  apply hneeds
  unfold pySlice at hv
  exact List.mem_of_mem_take (List.mem_of_mem_drop hv)

example : (parse (p! "rgb|x:3")).getList [-1, 0, 0] = .ok ⟨[p! "x.2", p! "r", p! "r"], false⟩ ∧
    (parse (p! "rgb|x:3")).getSlice (some (-4)) (some 10) =
      .ok ⟨[p! "b", p! "x.0", p! "x.1", p! "x.2"], false⟩ := ⟨by decide, by decide⟩

/-! ### C08 (fused variant) -/

/-- The slices `l` are consecutive, start at `a` and end at `b`. -/
def Tiles : Nat → List (Nat × Nat) → Nat → Prop
  | a, [], b => a = b
  | a, (s, e) :: rest, b => s = a ∧ s ≤ e ∧ Tiles e rest b

theorem tiles_from (idx : Nat) (l : List Str) (h : ∀ v ∈ l, ':' ∉ v) :
    ∃ n, (normParts l).map List.length = .ok n ∧
      Tiles idx ((componentIndicesFrom idx l).map Prod.snd) (idx + n) := by
  induction l generalizing idx with
  | nil => exact ⟨0, rfl, rfl⟩
  | cons v vs ih =>
    have hv := h v (by simp)
    cases ha : alias? v with
    | some w =>
      obtain ⟨n, hn, ht⟩ := ih (idx + w.length) (fun u hu => h u (by simp [hu]))
      obtain ⟨b, hb, rfl⟩ := Except.map_eq_ok'.1 hn
      refine ⟨w.length + b.length, ?_, ?_⟩
      · simp [normParts, expandCode, ha, hb]
      · simp only [componentIndicesFrom, ha, List.map_cons, Tiles]
        exact ⟨trivial, by omega, by rw [← Nat.add_assoc]; exact ht⟩
    | none =>
      obtain ⟨n, hn, ht⟩ := ih (idx + 1) (fun u hu => h u (by simp [hu]))
      obtain ⟨b, hb, rfl⟩ := Except.map_eq_ok'.1 hn
      refine ⟨1 + b.length, ?_, ?_⟩
      · simp [normParts, expandCode, ha, hv, hb, Nat.add_comm]
      · simp only [componentIndicesFrom, ha, List.map_cons, Tiles]
        exact ⟨trivial, by omega, by rw [← Nat.add_assoc]; exact ht⟩

/-- C08, partial: for a fused spec without slice codes, `component_indices` tiles the channel axis
`[0, numel)`.  Missing: specs with slice codes, for which it is false (next theorem). -/
theorem C08_fused_component_indices_partial (l : List Str) (h : ∀ v ∈ l, ':' ∉ v) :
    ∃ n, numel ⟨l, false⟩ = .ok n ∧ Tiles 0 ((componentIndices ⟨l, false⟩).map Prod.snd) n ∧
      (componentIndices ⟨l, false⟩).map Prod.fst = l := by
  obtain ⟨n, hn, ht⟩ := tiles_from 0 l h
  refine ⟨n, ?_, by simpa [componentIndices] using ht, ?_⟩
  · rw [(C01_numel_counts_channels (.ofList l)).1, asList_false, hn]
  · unfold componentIndices
    generalize 0 = i
    simp only
    clear h hn ht
    induction l generalizing i with
    | nil => rfl
    | cons v vs ih => simp [componentIndicesFrom, ih]

example : componentIndices (parse (p! "rgb|x")) = [(p! "rgb", 0, 3), (p! "x", 3, 4)] := by decide

/-- C08 is false for slice codes: in `a:3|b` the code `b` is assigned the slice `1:2`, although
the spec has four channels and `b` is the last. -/
theorem C08_fused_component_indices_violated :
    componentIndices (parse (p! "a:3|b")) = [(p! "a:3", 0, 1), (p! "b", 1, 2)] ∧
    (parse (p! "a:3|b")).numel = .ok 4 ∧
    (parse (p! "a:3|b")).asList = .ok [p! "a.0", p! "a.1", p! "a.2", p! "b"] :=
  ⟨by decide, by decide, by decide⟩

end Verif.Props
