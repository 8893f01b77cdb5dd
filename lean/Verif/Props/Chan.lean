/-
Property theorems about `ChannelSpec` and the memo of `FusedChannelSpec.coerce`
(C05, C07-C13).
-/
import Verif.ChanLemmas
import Verif.Props.Fused
import Mathlib.Data.List.Forall2
import Mathlib.Data.List.Nodup

set_option linter.unusedSimpArgs false
set_option linter.unusedVariables false

namespace Verif.Props
open Verif Verif.Fused Verif.Chan

/-! ### C05 (streams) -/

/-- C05: the streams of a spec string are its comma separated pieces, and joining them gives the
string back. -/
theorem C05_streams_roundtrip (s : Str) :
    joinWith ',' (Chan.keys ⟨s, none⟩) = s ∧
    ((Chan.streams ⟨s, none⟩).map Fused.spec) = Chan.keys ⟨s, none⟩ := by
  refine ⟨join_splitOn ',' s, ?_⟩
  unfold Chan.streams
  rw [List.map_map]
  conv => rhs; rw [← List.map_id (Chan.keys ⟨s, none⟩)]
  apply List.map_congr_left
  intro k _
  simp [C05_spec_roundtrip]

example : Chan.keys ⟨p! "a|b,rgb,c:3", none⟩ = [p! "a|b", p! "rgb", p! "c:3"] := by decide

/-! ### C07 -/

/-- What a fresh interpreter stores under a key. -/
def freshValue : MemoKey → Fused
  | .str s => Fused.parse s
  | .num n => Fused.fromInt n.toNat

/-- Every stored object has the channels of a fresh one. -/
def MemoOk (m : Memo) : Prop :=
  ∀ k f, dictGet m k = some f → f.parsed = (freshValue k).parsed ∧ FlagSound f

theorem freshValue_flagSound (k : MemoKey) : FlagSound (freshValue k) := by
  cases k with
  | str s => exact (Built.ofStr s).flagSound
  | num n => exact (Built.ofInt n.toNat).flagSound

theorem MemoOk.set {m : Memo} (h : MemoOk m) (k : MemoKey) {f : Fused}
    (hf : f.parsed = (freshValue k).parsed ∧ FlagSound f) : MemoOk (dictSet m k f) := by
  intro k' f' h'
  rw [dictGet_dictSet] at h'
  split at h'
  · next e => subst e; cases h'; exact hf
  · exact h k' f' h'

theorem noteNormalized_ok {f : Fused} (h : FlagSound f) :
    f.noteNormalized.parsed = f.parsed ∧ FlagSound f.noteNormalized := by
  unfold noteNormalized
  split
  · exact ⟨rfl, h⟩
  · split
    · exact ⟨rfl, h⟩
    · split
      · exact ⟨rfl, h⟩
      · next hn => exact ⟨rfl, fun _ => by simpa using hn⟩

theorem MemoOk.fromSpec {m : Memo} (h : MemoOk m) (s : Str) :
    MemoOk (Memo.fromSpec m s).2 ∧ (Memo.fromSpec m s).1.parsed = (Fused.parse s).parsed ∧
      FlagSound (Memo.fromSpec m s).1 := by
  unfold Memo.fromSpec
  split
  · next f hf => exact ⟨h, h _ _ hf⟩
  · exact ⟨h.set (.str s) ⟨rfl, freshValue_flagSound (.str s)⟩, rfl, freshValue_flagSound (.str s)⟩

theorem MemoOk.fromInt {m : Memo} (h : MemoOk m) (n : Int) :
    MemoOk (Memo.fromInt m n).2 ∧ (Memo.fromInt m n).1.parsed = (Fused.fromInt n.toNat).parsed ∧
      FlagSound (Memo.fromInt m n).1 := by
  unfold Memo.fromInt
  split
  · next f hf => exact ⟨h, h _ _ hf⟩
  · exact ⟨h.set (.num n) ⟨rfl, freshValue_flagSound (.num n)⟩, rfl, freshValue_flagSound (.num n)⟩

theorem MemoOk.coerce {m : Memo} (h : MemoOk m) (a : CoerceArg) : MemoOk (Memo.coerce m a).2 := by
  unfold Memo.coerce
  split
  · exact h
  · cases a with
    | str s => exact (h.fromSpec s).1
    | int n => exact (h.fromInt n).1
    | float n => exact h
    | list l => exact h
    | spec f => exact h
    | chan c =>
      simp only [Memo.coerceMiss]
      split <;> exact h
    | none => exact h

theorem MemoOk.run (ops : List Memo.Op) : MemoOk (Memo.run ops) := by
  unfold Memo.run
  have : ∀ m, MemoOk m → MemoOk (ops.foldl Memo.step m) := by
    induction ops with
    | nil => intro m h; exact h
    | cons op ops ih =>
      intro m h
      apply ih
      cases op with
      | coerce a => exact h.coerce a
      | fromSpec s => exact (h.fromSpec s).1
      | fromInt n => exact (h.fromInt n).1
      | normalizeEntry k =>
        simp only [Memo.step]
        split
        · next f hf =>
          have := h k f hf
          have hn := noteNormalized_ok this.2
          exact h.set k ⟨by rw [hn.1, this.1], hn.2⟩
        · exact h
  exact this [] (by intro k f h; simp [dictGet] at h)

/-- C07: after any history of calls, `coerce` of a string, integer, list, spec, channel spec or
None gives the same codes and the same normalized channels (or the same exception) as in a fresh
process. -/
theorem C07_coerce_history_independent_partial (ops : List Memo.Op) (a : CoerceArg)
    (hfloat : ∀ n, a ≠ .float n) (hspec : ∀ f, a = .spec f → FlagSound f) :
    (Memo.coerce (Memo.run ops) a).1.map Fused.parsed = (Memo.coerce [] a).1.map Fused.parsed ∧
    (Memo.coerce (Memo.run ops) a).1.bind Fused.asList = (Memo.coerce [] a).1.bind Fused.asList := by
  have hm := MemoOk.run ops
  have key : ∀ f g : Fused, FlagSound f → FlagSound g → f.parsed = g.parsed →
      f.asList = g.asList := by
    intro f g hf hg e; rw [asList_eq hf, asList_eq hg, e]
  cases a with
  | float n => exact absurd rfl (hfloat n)
  | str s =>
    have h1 : (Memo.coerce [] (.str s)).1 = .ok (Fused.parse s) := rfl
    rw [h1]
    unfold Memo.coerce
    cases hg : dictGet (Memo.run ops) (.str s) with
    | some f =>
      have := hm _ _ hg
      simp only [Memo.key?, Option.bind_some, hg, Except.map, Except.bind]
      exact ⟨by rw [this.1]; rfl, key _ _ this.2 (freshValue_flagSound (.str s)) this.1⟩
    | none =>
      simp [Memo.key?, hg, Memo.coerceMiss, Memo.fromSpec]
  | int n =>
    have h1 : (Memo.coerce [] (.int n)).1 = .ok (Fused.fromInt n.toNat) := rfl
    rw [h1]
    unfold Memo.coerce
    cases hg : dictGet (Memo.run ops) (.num n) with
    | some f =>
      have := hm _ _ hg
      simp only [Memo.key?, Option.bind_some, hg, Except.map, Except.bind]
      exact ⟨by rw [this.1]; rfl, key _ _ this.2 (freshValue_flagSound (.num n)) this.1⟩
    | none =>
      simp [Memo.key?, hg, Memo.coerceMiss, Memo.fromInt]
  | list l => exact ⟨rfl, rfl⟩
  | spec f => exact ⟨rfl, rfl⟩
  | chan c =>
    simp only [Memo.coerce, Memo.key?, Option.bind_none, Memo.coerceMiss]
    split <;> exact ⟨rfl, rfl⟩
  | none => exact ⟨rfl, rfl⟩

/-- C07: what `coerce` gives, after any history: the spec with the given string, the listed codes, the
channels `u0` to `u(n-1)`, the given spec or the only stream, and its channels are the expansion of these
codes. -/
theorem C07_coerce_meaning (ops : List Memo.Op) :
    (∀ s, ∃ f, (Memo.coerce (Memo.run ops) (.str s)).1 = .ok f ∧ f.spec = s ∧
      f.asList = normParts f.parsed) ∧
    (∀ l, ∃ f, (Memo.coerce (Memo.run ops) (.list l)).1 = .ok f ∧ f.parsed = l ∧
      f.asList = normParts l) ∧
    (∀ n : Nat, ∃ f, (Memo.coerce (Memo.run ops) (.int n)).1 = .ok f ∧
      f.asList = .ok ((List.range n).map fun i => 'u' :: natStr i)) ∧
    (∀ g, FlagSound g → ∃ f, (Memo.coerce (Memo.run ops) (.spec g)).1 = .ok f ∧ f.parsed = g.parsed ∧
      f.asList = g.asList) ∧
    (∀ c f, (Memo.coerce (Memo.run ops) (.chan c)).1 = .ok f → c.parse.map (fun e => e.2.parsed) = [f.parsed] ∧
      f.asList = normParts f.parsed) ∧
    (Memo.coerce (Memo.run ops) .none).1 = .error .typeError := by
  have hm := MemoOk.run ops
  refine ⟨?_, ?_, ?_, ?_, ?_, rfl⟩
  · intro s
    unfold Memo.coerce
    cases hg : dictGet (Memo.run ops) (.str s) with
    | some f =>
      have := hm _ _ hg
      refine ⟨f, by simp [Memo.key?, hg], ?_, asList_eq this.2⟩
      rw [Fused.spec, this.1]
      exact C05_spec_roundtrip s
    | none =>
      refine ⟨Fused.parse s, by simp [Memo.key?, hg, Memo.coerceMiss, Memo.fromSpec], C05_spec_roundtrip s,
        asList_eq (freshValue_flagSound (.str s))⟩
  · intro l
    exact ⟨⟨l, false⟩, rfl, rfl, asList_false l⟩
  · intro n
    have key : ∀ f, f.parsed = (Fused.fromInt n).parsed → FlagSound f →
        f.asList = .ok ((List.range n).map fun i => 'u' :: natStr i) := by
      intro f h1 h2
      rw [asList_eq h2, h1]
      refine normParts_of_not_needs fun v hv => ?_
      simp only [Fused.fromInt, List.mem_map] at hv
      obtain ⟨i, _, rfl⟩ := hv
      have h3 : ':' ∉ natStr i := natStr_not_mem (by simp)
      simp [needsNorm, alias?, h3]
    unfold Memo.coerce
    cases hg : dictGet (Memo.run ops) (.num n) with
    | some f =>
      have := hm _ _ hg
      exact ⟨f, by simp [Memo.key?, hg], key f (by simpa [freshValue] using this.1) this.2⟩
    | none =>
      refine ⟨Fused.fromInt n, by simp [Memo.key?, hg, Memo.coerceMiss, Memo.fromInt],
        key _ rfl (freshValue_flagSound (.num n))⟩
  · intro g hg
    exact ⟨g, rfl, rfl, rfl⟩
  · intro c f h
    simp only [Memo.coerce, Memo.key?, Option.bind_none, Memo.coerceMiss] at h
    split at h
    · next x f' e =>
      cases h
      rw [e]
      exact ⟨rfl, asList_false _⟩
    · cases h

/-- A history that really fills the memo and flags one of its objects. -/
example : (dictGet (Memo.run [.coerce (.str (p! "a|b")), .fromInt 3,
    .normalizeEntry (.str (p! "a|b"))]) (.str (p! "a|b"))) = some ⟨[p! "a", p! "b"], true⟩ := by
  decide

/-- C07 is false for floats: `coerce(2.0)` raises in a fresh process, but succeeds after
`coerce(2)`. -/
theorem C07_coerce_float_violated :
    (Memo.coerce [] (.float 2)).1 = .error .typeError ∧
    (Memo.coerce (Memo.run [.coerce (.int 2)]) (.float 2)).1 =
      .ok ⟨[p! "u0", p! "u1"], false⟩ := ⟨by decide, by decide⟩

/-! ### C08 -/

theorem componentLoop_tiles (key : Str) (i : Nat) (l : List (Str × Nat)) :
    Tiles i ((componentLoop key i l).map (·.2.2)) (i + (l.map Prod.snd).sum) ∧
    (componentLoop key i l).map (fun e => (e.1, e.2.2.2 - e.2.2.1)) = l := by
  induction l generalizing i with
  | nil => exact ⟨rfl, rfl⟩
  | cons p ps ih =>
    obtain ⟨a, b⟩ := p
    have := ih (i + b)
    simp only [componentLoop, List.map_cons, Tiles, List.sum_cons]
    refine ⟨⟨trivial, by omega, by rw [← Nat.add_assoc]; exact this.1⟩, ?_⟩
    rw [this.2]
    simp

/-- C08: for a spec with distinct codes, `component_indices` lists every code of every stream; the
slices of one stream, in order, tile `[0, numel)` and each is as long as its code has channels. -/
theorem C08_component_indices (ss : List (List Str)) (size : Str → Nat) (hne : ss ≠ [])
    (hok : ∀ g ∈ ss, StreamOk g) (hnd : ss.flatten.Nodup)
    (hsize : ∀ g ∈ ss, ∀ c ∈ g, Fused.numel ⟨[c], false⟩ = .ok (size c)) :
    ∃ d, Chan.componentIndices ⟨specOf ss, none⟩ = .ok d ∧ d.map Prod.fst = ss.flatten ∧
      ∀ g ∈ ss, ∃ n, Fused.numel ⟨g, false⟩ = .ok n ∧
        let e := d.filter (fun e => decide (e.2.1 = joinWith '|' g))
        e.map Prod.fst = g ∧ Tiles 0 (e.map (·.2.2)) n ∧
        e.map (fun x => (x.1, x.2.2.2 - x.2.2.1)) = g.map (fun c => (c, size c)) := by
  have hcs : ∀ g ∈ ss, ∀ c ∈ g, codeSize c = .ok (size c) := by
    intro g hg c hc
    have := hsize g hg c hc
    simp only [Fused.numel, Fused.sizes, Bool.false_eq_true, if_false, Fused.sizesLoop] at this
    cases h : codeSize c with
    | error e => rw [h] at this; cases this
    | ok n => rw [h] at this; simpa [Except.map] using this
  have hss : ss.Nodup := by
    have hne' : ∀ g ∈ ss, g ≠ [] := fun g hg => (hok g hg).ne
    clear hsize hcs hok hne
    induction ss with
    | nil => simp
    | cons g gs ih =>
      rw [List.flatten_cons, List.nodup_append] at hnd
      rw [List.nodup_cons]
      refine ⟨?_, ih hnd.2.1 (fun x hx => hne' x (by simp [hx]))⟩
      intro hg
      cases hgc : g with
      | nil => exact hne' g (by simp) hgc
      | cons c cs =>
        exact hnd.2.2 c (by simp [hgc]) c (List.mem_flatten.2 ⟨g, hg, by simp [hgc]⟩) rfl
  have hfst : ((ss.map (fun g => componentLoop (joinWith '|' g) 0 (g.map (fun x => (x, size x))))).flatten).map
      Prod.fst = ss.flatten := by
    rw [List.map_flatten, List.map_map]
    congr 1
    conv => rhs; rw [← List.map_id ss]
    apply List.map_congr_left
    intro g _
    simp [componentLoop_fst, Function.comp_def]
  refine ⟨_, ?_, hfst, ?_⟩
  · unfold Chan.componentIndices
    rw [parse_specOf hne hok hss, componentItems_ok hcs]
    simp only [Except.ok_bind']
    rw [dictOf_of_nodup]
    · simp
    · simpa [hfst] using hnd
  · intro g hg
    have hfilt : ((ss.map (fun g => componentLoop (joinWith '|' g) 0 (g.map (fun x => (x, size x))))).flatten).filter
        (fun e => decide (e.2.1 = joinWith '|' g)) =
        componentLoop (joinWith '|' g) 0 (g.map (fun x => (x, size x))) := by
      clear hfst hcs hsize hnd hne
      have none_of : ∀ l : List (List Str), (∀ x ∈ l, StreamOk x) → g ∉ l → StreamOk g →
          ((l.map (fun g => componentLoop (joinWith '|' g) 0 (g.map (fun x => (x, size x))))).flatten).filter
          (fun e => decide (e.2.1 = joinWith '|' g)) = [] := by
        intro l hl hgl hgo
        rw [List.filter_eq_nil_iff]
        intro e he
        obtain ⟨l', hl', he⟩ := List.mem_flatten.1 he
        obtain ⟨x, hx, rfl⟩ := List.mem_map.1 hl'
        have := componentLoop_key _ _ _ e he
        rw [this]
        simp only [decide_eq_true_eq]
        intro h
        exact hgl (streams_join_injective (hl x hx) hgo h ▸ hx)
      induction ss with
      | nil => simp at hg
      | cons s ss ih =>
        rw [List.nodup_cons] at hss
        simp only [List.map_cons, List.flatten_cons, List.filter_append]
        by_cases e : s = g
        · subst e
          rw [none_of ss (fun x hx => hok x (by simp [hx])) hss.1 (hok s (by simp)), List.append_nil]
          rw [List.filter_eq_self]
          intro e he
          simpa using componentLoop_key _ _ _ e he
        · have hgs : g ∈ ss := by
            rcases List.mem_cons.1 hg with h | h
            · exact absurd h.symm e
            · exact h
          have h1 := none_of [s] (by simpa using hok s (by simp)) (by simpa using fun h => e h.symm)
            (hok g hg)
          simp only [List.map_cons, List.map_nil, List.flatten_cons, List.flatten_nil,
            List.append_nil] at h1
          rw [h1, List.nil_append]
          exact ih (fun x hx => hok x (by simp [hx])) hss.2 hgs
    rw [hfilt]
    have ht := componentLoop_tiles (joinWith '|' g) 0 (g.map (fun x => (x, size x)))
    refine ⟨(g.map size).sum, ?_, ?_, ?_, ht.2⟩
    · simp [Fused.numel, Fused.sizes, sizesLoop_ok (hcs g hg)]
    · simp [componentLoop_fst, Function.comp_def]
    · simpa [Function.comp_def] using ht.1

example : Chan.componentIndices ⟨p! "rgb|m:2,x", none⟩ =
    .ok [(p! "rgb", p! "rgb|m:2", 0, 3), (p! "m:2", p! "rgb|m:2", 3, 5), (p! "x", p! "x", 0, 1)] := by
  decide

example : StreamOk [p! "rgb", p! "m:2"] := ⟨by decide, by decide, by decide, by decide⟩

/-! ### C09 -/

theorem chan_sizesLoop (l : List (List Str)) (lss : List (List Str))
    (h : l.map (fun g => Fused.asList ⟨g, false⟩) = lss.map .ok) :
    Chan.sizesLoop (l.map (fun g => (joinWith '|' g, (⟨g, false⟩ : Fused)))) =
      .ok ((l.map (joinWith '|')).zip (lss.map List.length)) := by
  induction l generalizing lss with
  | nil => cases lss <;> simp at h; rfl
  | cons g gs ih =>
    cases lss with
    | nil => simp at h
    | cons m ms =>
      simp only [List.map_cons, List.cons.injEq] at h
      have hn : Fused.numel ⟨g, false⟩ = .ok m.length := by
        rw [(C01_numel_counts_channels (.ofList g)).1, h.1]; rfl
      simp [Chan.sizesLoop, hn, ih ms h.2]

theorem normParts_flatten_ok (l : List (List Str)) (lss : List (List Str))
    (h : l.map (fun g => Fused.asList ⟨g, false⟩) = lss.map .ok) :
    normParts l.flatten = .ok lss.flatten := by
  induction l generalizing lss with
  | nil => cases lss <;> simp at h; rfl
  | cons g gs ih =>
    cases lss with
    | nil => simp at h
    | cons m ms =>
      simp only [List.map_cons, List.cons.injEq] at h
      rw [asList_false] at h
      simp [normParts_append, h.1, ih ms h.2]

/-- C09: for distinct streams, with normalized channel lists `lss`: the streams are the given ones,
`sizes()` are the stream lengths, `fuse()` lists all channels in order and `numel()` counts
them. -/
theorem C09_numel_streams_fuse (ss lss : List (List Str)) (hne : ss ≠ [])
    (hok : ∀ g ∈ ss, StreamOk g) (hnd : ss.Nodup)
    (hl : ss.map (fun g => Fused.asList ⟨g, false⟩) = lss.map .ok) :
    (Chan.streams ⟨specOf ss, none⟩).map Fused.parsed = ss ∧
    Chan.sizes ⟨specOf ss, none⟩ = .ok ((ss.map (joinWith '|')).zip (lss.map List.length)) ∧
    Chan.numel ⟨specOf ss, none⟩ = .ok (lss.map List.length).sum ∧
    (Chan.fuse ⟨specOf ss, none⟩).asList = .ok lss.flatten ∧
    (Chan.fuse ⟨specOf ss, none⟩).numel = Chan.numel ⟨specOf ss, none⟩ := by
  have hlen : ss.length = lss.length := by simpa using congrArg List.length hl
  have hs : Chan.sizes ⟨specOf ss, none⟩ = .ok ((ss.map (joinWith '|')).zip (lss.map List.length)) := by
    unfold Chan.sizes
    rw [parse_specOf hne hok hnd, chan_sizesLoop ss lss hl]
  have hnum : Chan.numel ⟨specOf ss, none⟩ = .ok (lss.map List.length).sum := by
    unfold Chan.numel
    rw [hs]
    simp only [Except.ok_bind']
    rw [List.map_snd_zip]
    simp [hlen]
  have hfl : (Chan.fuse ⟨specOf ss, none⟩).asList = .ok lss.flatten := by
    rw [fuse_specOf hne hok, asList_false, normParts_flatten_ok ss lss hl]
  refine ⟨?_, hs, hnum, hfl, ?_⟩
  · rw [streams_specOf hne hok, List.map_map]; simp [Function.comp_def]
  · rw [hnum]
    rw [fuse_specOf hne hok] at hfl ⊢
    rw [(C01_numel_counts_channels (.ofList _)).1, hfl]
    simp [List.length_flatten]

example : Chan.numel ⟨p! "rgb,m.1:3|x", none⟩ = .ok 6 ∧
    (Chan.fuse ⟨p! "rgb,m.1:3|x", none⟩).asList =
      .ok [p! "r", p! "g", p! "b", p! "m.1", p! "m.2", p! "x"] := ⟨by decide, by decide⟩

/-- Without distinct streams C09 fails: `a,a` has two streams, `fuse` has two channels, `numel` is
one. -/
theorem C09_repeated_stream_violated :
    Chan.numel ⟨p! "a,a", none⟩ = .ok 1 ∧ (Chan.fuse ⟨p! "a,a", none⟩).numel = .ok 2 ∧
    (Chan.streams ⟨p! "a,a", none⟩).length = 2 := ⟨by decide, by decide, by decide⟩

/-- Normalizing can merge streams that were distinct: `rgb,r|g|b` has six channels, its
normalization three. -/
theorem C09_normalize_merges_violated :
    Chan.numel ⟨p! "rgb,r|g|b", none⟩ = .ok 6 ∧
    ∃ n, Chan.normalize ⟨p! "rgb,r|g|b", none⟩ = .ok n ∧ n.numel = .ok 3 ∧ n.spec = p! "r|g|b" :=
  ⟨by decide, ⟨p! "r|g|b", some [(p! "r|g|b", ⟨[p! "r", p! "g", p! "b"], true⟩)]⟩, by decide,
    by decide, by decide⟩

/-! ### C10 -/

/-- The item dictionary whose keys group the codes as in `groups`, where code `c` has the rows
`comp c`. -/
def itemOf {α} (groups : List (List Str)) (comp : Str → List α) : List (Str × List α) :=
  groups.map (fun g => (joinWith '|' g, (g.map comp).flatten))

theorem encodeStreams_ok {α} {groups : List (List Str)} {comp : Str → List α}
    (hok : ∀ g ∈ groups, StreamOk g)
    {idx : List (Str × Str × Nat × Nat)}
    (hidx : ∀ k v, dictGet idx k = some v → ∃ g ∈ groups, Occ (fun c => (comp c).length) g (k, v))
    (hall : ∀ k, (∃ g ∈ groups, k ∈ g) → ∃ v, dictGet idx k = some v)
    (ss : List (List Str)) (hsok : ∀ s ∈ ss, StreamOk s) (hnd : ∀ s ∈ ss, s.Nodup)
    (hpos : ∀ s ∈ ss, ∀ c ∈ s, comp c ≠ [])
    (hsub : ∀ s ∈ ss, ∀ c ∈ s, ∃ g ∈ groups, c ∈ g) :
    encodeStreams (itemOf groups comp) idx
      (ss.map (fun g => (joinWith '|' g, (⟨g, false⟩ : Fused)))) =
      .ok (ss.map (fun s => (joinWith '|' s, (s.map comp).flatten))) := by
  induction ss with
  | nil => rfl
  | cons s ss ih =>
    have ih := ih (fun x hx => hsok x (by simp [hx])) (fun x hx => hnd x (by simp [hx]))
      (fun x hx => hpos x (by simp [hx])) (fun x hx => hsub x (by simp [hx]))
    obtain ⟨vs, hv1, hv2, hv3⟩ := lookupAll_ok (d := idx) (ks := s)
      (fun k hk => hall k (hsub s (by simp) k hk))
    have hzs : (s.zip vs).map Prod.snd = vs := List.map_snd_zip (by omega)
    have hzf : (s.zip vs).map Prod.fst = s := List.map_fst_zip (by omega)
    have hocc : ∀ q ∈ s.zip vs, ∃ g ∈ groups, Occ (fun c => (comp c).length) g q :=
      fun q hq => hidx q.1 q.2 (hv3 q hq)
    have hposq : ∀ q ∈ s.zip vs, 0 < (comp q.1).length := by
      intro q hq
      have hm : q.1 ∈ s := (List.of_mem_zip hq).1
      exact List.length_pos_iff.2 (hpos s (by simp) q.1 hm)
    obtain ⟨mg1, mg2⟩ := mergeGroups_spec (s.zip vs) hok hocc hposq
      (by rw [hzf]; exact hnd s (by simp))
    rw [hzs] at mg1 mg2
    let read : Str → List α := fun k => (dictGet (itemOf groups comp) k).getD []
    have hread : ∀ q ∈ s.zip vs, dictGet (itemOf groups comp) q.2.1 = some (read q.2.1) ∧
        q.2.2.1 ≤ q.2.2.2 ∧ rows (read q.2.1) q.2.2.1 q.2.2.2 = comp q.1 := by
      intro q hq
      obtain ⟨g, hg, pre, post, e1, e2, e3, e4⟩ := hocc q hq
      have hd := dictGet_map_key hok (fun g => (g.map comp).flatten) hg
      have hr : read q.2.1 = (g.map comp).flatten := by
        simp only [read, e2, itemOf, hd, Option.getD_some]
      refine ⟨?_, by omega, ?_⟩
      · rw [hr, e2]; exact hd
      · rw [hr, e4, e3, e1]
        exact rows_flatten comp pre post q.1
    obtain ⟨parts, hp1, hp2, hp3⟩ := readSlices_merge (item := itemOf groups comp) read mg1 (by
      intro g hg e he
      have : e ∈ vs := by rw [← mg2]; exact List.mem_flatten.2 ⟨g, hg, he⟩
      rw [← hzs] at this
      obtain ⟨q, hq, rfl⟩ := List.mem_map.1 this
      exact ⟨(hread q hq).1, (hread q hq).2.1⟩)
    have hflat : parts.flatten = (s.map comp).flatten := by
      rw [hp2, mg2, ← hzs, List.map_map]
      conv => rhs; rw [← hzf, List.map_map]
      congr 1
      apply List.map_congr_left
      intro q hq
      exact (hread q hq).2.2
    have hcat : cat parts = .ok (s.map comp).flatten := by
      cases hparts : parts with
      | cons p ps => rw [← hflat, hparts]; rfl
      | nil =>
        exfalso
        have : (s.map comp).flatten = [] := by rw [← hflat, hparts]; rfl
        obtain ⟨c, hc⟩ := List.exists_mem_of_ne_nil s (hsok s (by simp)).ne
        have h0 := List.flatten_eq_nil_iff.1 this (comp c) (List.mem_map_of_mem hc)
        exact hpos s (by simp) c hc h0
    simp only [List.map_cons, encodeStreams, hv1, Except.ok_bind', mergeSlices, hp1, hcat, ih]

/-- C10, partial: let code `c` have the rows `comp c` (as many as it has channels), and let the item
group the codes into keys in any way.  Then `encode` returns for every stream the concatenation of
the rows of its codes.  Missing: streams that repeat a code or contain a zero channel code, for which
the claim is false (below). -/
theorem C10_encode_partial {α : Type} [DecidableEq α] (groups ss : List (List Str)) (comp : Str → List α)
    (hg : groups ≠ []) (hok : ∀ g ∈ groups, StreamOk g)
    (hsize : ∀ g ∈ groups, ∀ c ∈ g, Fused.numel ⟨[c], false⟩ = .ok (comp c).length)
    (hs : ss ≠ []) (hsok : ∀ s ∈ ss, StreamOk s) (hdist : ss.Nodup)
    (hsub : ∀ s ∈ ss, ∀ c ∈ s, ∃ g ∈ groups, c ∈ g)
    (hnd : ∀ s ∈ ss, s.Nodup) (hpos : ∀ s ∈ ss, ∀ c ∈ s, comp c ≠ []) :
    Chan.encode ⟨specOf ss, none⟩ (itemOf groups comp) =
      .ok (ss.map (fun s => (joinWith '|' s, (s.map comp).flatten))) := by
  have hcs : ∀ g ∈ groups, ∀ c ∈ g, codeSize c = .ok (comp c).length := by
    intro g hg c hc
    have := hsize g hg c hc
    simp only [Fused.numel, Fused.sizes, Bool.false_eq_true, if_false, Fused.sizesLoop] at this
    cases h : codeSize c with
    | error e => rw [h] at this; cases this
    | ok n => rw [h] at this; simpa [Except.map] using this
  unfold Chan.encode
  rw [if_neg (by simpa [itemOf] using hg)]
  have hkeys : ∀ k ∈ sortStr ((itemOf groups comp).map Prod.fst),
      ∃ g ∈ groups, k = joinWith '|' g := by
    intro k hk
    rw [mem_sortStr] at hk
    simp only [itemOf, List.map_map, List.mem_map, Function.comp_apply] at hk
    obtain ⟨g, hg, rfl⟩ := hk
    exact ⟨g, hg, rfl⟩
  obtain ⟨d, hd, hd1, hd2⟩ := itemIndices_spec (size := fun c => (comp c).length) hok hcs _ hkeys []
    (by intro k v h; simp [dictGet] at h)
  rw [hd]
  simp only [Except.ok_bind']
  rw [parse_specOf hs hsok hdist]
  apply encodeStreams_ok hok hd1 _ ss hsok hnd hpos hsub
  rintro k ⟨g, hg', hk⟩
  apply hd2
  right
  refine ⟨g, hg', ?_, hk⟩
  rw [mem_sortStr]
  simp only [itemOf, List.map_map, List.mem_map, Function.comp_apply]
  exact ⟨g, hg', rfl⟩

/-- `rgb|x,m:2` encoded from an item grouped as `x|m:2`, `rgb`. -/
example : Chan.encode ⟨p! "rgb|x,m:2", none⟩ [(p! "x|m:2", [10, 20, 21]), (p! "rgb", [1, 2, 3])] =
    .ok [(p! "rgb|x", [1, 2, 3, 10]), (p! "m:2", [20, 21])] := by decide

/-- C10 is false for a repeated code: encoding `a|b|b` from the item `{'a|b': [1, 2]}` yields two
rows instead of three. -/
theorem C10_repeated_code_violated :
    Chan.encode ⟨p! "a|b|b", none⟩ [(p! "a|b", [1, 2])] = .ok [(p! "a|b|b", [1, 2])] ∧
    Chan.encode0 ⟨p! "a|b|b", none⟩ [(p! "a|b", [1, 2])] = .ok [(p! "a|b|b", [1, 2, 2])] ∧
    Chan.numel ⟨p! "a|b|b", none⟩ = .ok 3 := ⟨by decide, by decide, by decide⟩

/-- C10 is false with a zero channel code: the row of `b` is lost. -/
theorem C10_zero_size_code_violated :
    Chan.encode ⟨p! "a|b|z:0", none⟩ [(p! "a|z:0|b", [1, 2])] = .ok [(p! "a|b|z:0", [1])] ∧
    Chan.numel ⟨p! "a|b|z:0", none⟩ = .ok 2 := ⟨by decide, by decide⟩

/-- The two modes disagree: mode 0 iterates the normalized codes of the stream, so it raises
`KeyError` for an alias that mode 1 encodes. -/
theorem C10_mode0_alias_violated :
    Chan.encode ⟨p! "rgb", none⟩ [(p! "rgb", [1, 2, 3])] = .ok [(p! "rgb", [1, 2, 3])] ∧
    Chan.encode0 ⟨p! "rgb", none⟩ [(p! "rgb", [1, 2, 3])] = .error .keyError := ⟨by decide, by decide⟩

/-! ### C11 -/

theorem decodeItems_ok {α} [DecidableEq α] (comp : Str → List α) (inputs : List (Str × List α))
    (ss : List (List Str)) (hsok : ∀ s ∈ ss, StreamOk s)
    (hsize : ∀ s ∈ ss, ∀ c ∈ s, codeSize c = .ok (comp c).length)
    (hin : ∀ s ∈ ss, dictGet inputs (joinWith '|' s) = some (s.map comp).flatten) :
    decodeItems inputs (ss.map (fun g => (joinWith '|' g, (⟨g, false⟩ : Fused)))) =
      .ok (ss.flatten.map (fun c => (c, comp c))) := by
  induction ss with
  | nil => rfl
  | cons s ss ih =>
    have ih := ih (fun x hx => hsok x (by simp [hx])) (fun x hx => hsize x (by simp [hx]))
      (fun x hx => hin x (by simp [hx]))
    have hd := decodeLoop_eq comp [] s
    simp only [List.nil_append, List.map_nil, List.sum_nil] at hd
    have hne : s.map (fun x => (x, (comp x).length)) ≠ [] := by simpa using (hsok s (by simp)).ne
    simp only [List.map_cons, decodeItems, Fused.sizes, Bool.false_eq_true, if_false,
      sizesLoop_ok (hsize s (by simp)), Except.ok_bind', zip_map_self, hne, hin s (by simp), ih, hd,
      List.flatten_cons, List.map_append]

/-- C11 (decode): for distinct codes, decoding stream arrays made of the rows `comp c` returns
exactly the component of every code. -/
theorem C11_decode {α : Type} [DecidableEq α] (ss : List (List Str)) (comp : Str → List α)
    (hs : ss ≠ []) (hsok : ∀ s ∈ ss, StreamOk s) (hnd : ss.flatten.Nodup)
    (hsize : ∀ s ∈ ss, ∀ c ∈ s, Fused.numel ⟨[c], false⟩ = .ok (comp c).length) :
    Chan.decode ⟨specOf ss, none⟩ (itemOf ss comp) = .ok (ss.flatten.map (fun c => (c, comp c))) := by
  have hcs : ∀ g ∈ ss, ∀ c ∈ g, codeSize c = .ok (comp c).length := by
    intro g hg c hc
    have := hsize g hg c hc
    simp only [Fused.numel, Fused.sizes, Bool.false_eq_true, if_false, Fused.sizesLoop] at this
    cases h : codeSize c with
    | error e => rw [h] at this; cases this
    | ok n => rw [h] at this; simpa [Except.map] using this
  have hss : ss.Nodup := by
    have hne' : ∀ g ∈ ss, g ≠ [] := fun g hg => (hsok g hg).ne
    clear hsize hcs hsok hs
    induction ss with
    | nil => simp
    | cons g gs ih =>
      rw [List.flatten_cons, List.nodup_append] at hnd
      rw [List.nodup_cons]
      refine ⟨?_, ih hnd.2.1 (fun x hx => hne' x (by simp [hx]))⟩
      intro hg
      cases hgc : g with
      | nil => exact hne' g (by simp) hgc
      | cons c cs =>
        exact hnd.2.2 c (by simp [hgc]) c (List.mem_flatten.2 ⟨g, hg, by simp [hgc]⟩) rfl
  unfold Chan.decode
  rw [parse_specOf hs hsok hss, decodeItems_ok comp _ ss hsok hcs]
  · simp only [Except.ok_bind']
    rw [dictOf_of_nodup]
    · simp
    · simpa [Function.comp_def] using hnd
  · intro s hs'
    exact dictGet_map_key hsok (fun g => (g.map comp).flatten) hs'

/-- C11, partial: for a spec with pairwise distinct codes that all have at least one channel,
`encode` of any grouping of the components followed by `decode` returns every component, and
`encode` of the decoded components gives the stream arrays back.  Missing: zero channel codes. -/
theorem C11_decode_encode_partial {α : Type} [DecidableEq α] (groups ss : List (List Str)) (comp : Str → List α)
    (hg : groups ≠ []) (hok : ∀ g ∈ groups, StreamOk g)
    (hsize : ∀ g ∈ groups, ∀ c ∈ g, Fused.numel ⟨[c], false⟩ = .ok (comp c).length)
    (hs : ss ≠ []) (hsok : ∀ s ∈ ss, StreamOk s)
    (hsub : ∀ s ∈ ss, ∀ c ∈ s, ∃ g ∈ groups, c ∈ g)
    (hnd : ss.flatten.Nodup) (hpos : ∀ s ∈ ss, ∀ c ∈ s, comp c ≠ [])
    (hemp : ∀ s ∈ ss, ∀ c ∈ s, c ≠ []) :
    (∃ arrs, Chan.encode ⟨specOf ss, none⟩ (itemOf groups comp) = .ok arrs ∧
      Chan.decode ⟨specOf ss, none⟩ arrs = .ok (ss.flatten.map (fun c => (c, comp c)))) ∧
    (∃ comps, Chan.decode ⟨specOf ss, none⟩ (itemOf ss comp) = .ok comps ∧
      Chan.encode ⟨specOf ss, none⟩ comps = .ok (itemOf ss comp)) := by
  have hss : ss.Nodup := by
    have hne' : ∀ g ∈ ss, g ≠ [] := fun g hg => (hsok g hg).ne
    clear hsize hsok hs hpos hsub hemp
    induction ss with
    | nil => simp
    | cons g gs ih =>
      rw [List.flatten_cons, List.nodup_append] at hnd
      rw [List.nodup_cons]
      refine ⟨?_, ih hnd.2.1 (fun x hx => hne' x (by simp [hx]))⟩
      intro hg
      cases hgc : g with
      | nil => exact hne' g (by simp) hgc
      | cons c cs =>
        exact hnd.2.2 c (by simp [hgc]) c (List.mem_flatten.2 ⟨g, hg, by simp [hgc]⟩) rfl
  have hnds : ∀ s ∈ ss, s.Nodup := fun s hs' => (List.nodup_flatten.1 hnd).1 s hs'
  have hsize' : ∀ s ∈ ss, ∀ c ∈ s, Fused.numel ⟨[c], false⟩ = .ok (comp c).length := by
    intro s hs' c hc
    obtain ⟨g, hg, hcg⟩ := hsub s hs' c hc
    exact hsize g hg c hcg
  have hdec := C11_decode ss comp hs hsok hnd hsize'
  refine ⟨⟨_, C10_encode_partial groups ss comp hg hok hsize hs hsok hss hsub hnds hpos, hdec⟩,
    ⟨_, hdec, ?_⟩⟩
  have e : ss.flatten.map (fun c => (c, comp c)) = itemOf (ss.flatten.map (fun c => [c])) comp := by
    simp [itemOf, joinWith, Function.comp_def]
  rw [e]
  apply C10_encode_partial _ ss comp _ _ _ hs hsok hss _ hnds hpos
  · obtain ⟨s, hs'⟩ := List.exists_mem_of_ne_nil ss hs
    obtain ⟨c, hc⟩ := List.exists_mem_of_ne_nil s (hsok s hs').ne
    intro h
    have : c ∈ ss.flatten := List.mem_flatten.2 ⟨s, hs', hc⟩
    rw [List.map_eq_nil_iff] at h
    simp [h] at this
  · intro g hg'
    obtain ⟨c, hc, rfl⟩ := List.mem_map.1 hg'
    obtain ⟨s, hs', hc⟩ := List.mem_flatten.1 hc
    exact ⟨by simp, by simpa using hemp s hs' c hc, by simpa using (hsok s hs').pipe c hc,
      by simpa using (hsok s hs').comma c hc⟩
  · intro g hg' c' hc'
    obtain ⟨c, hc, rfl⟩ := List.mem_map.1 hg'
    simp only [List.mem_singleton] at hc'
    subst hc'
    obtain ⟨s, hs', hc⟩ := List.mem_flatten.1 hc
    exact hsize' s hs' c' hc
  · intro s hs' c hc
    exact ⟨[c], List.mem_map.2 ⟨c, List.mem_flatten.2 ⟨s, hs', hc⟩, rfl⟩, by simp⟩

example : ∃ arrs, Chan.encode ⟨p! "rgb|x,m:2", none⟩
      [(p! "m:2|x", [20, 21, 10]), (p! "rgb", [1, 2, 3])] = .ok arrs ∧
    Chan.decode ⟨p! "rgb|x,m:2", none⟩ arrs =
      .ok [(p! "rgb", [1, 2, 3]), (p! "x", [10]), (p! "m:2", [20, 21])] :=
  ⟨[(p! "rgb|x", [1, 2, 3, 10]), (p! "m:2", [20, 21])], by decide, by decide⟩

/-! ### C12 -/

theorem filterStreams_ok (op : Fused → Py Fused) (h : Fused → List Str) (l : List Fused)
    (hop : ∀ p ∈ l, op p = .ok ⟨h p, true⟩) :
    filterStreams op l = .ok (((l.map h).filter (fun x => decide (x ≠ []))).map (fun x => ⟨x, true⟩)) := by
  induction l with
  | nil => rfl
  | cons p ps ih =>
    simp only [filterStreams, hop p (by simp), ih (fun q hq => hop q (by simp [hq])), Except.ok_bind',
      List.map_cons]
    by_cases e : h p = []
    · simp [e]
    · simp [e]

theorem mapStreams_norm (acc l : List (Str × Fused)) (hl : ∀ p ∈ l, FlagSound p.2)
    {d : List (Str × Fused)} (h : mapStreams Fused.normalize acc l = .ok d)
    (hacc : ∀ p ∈ acc, p.2.isNorm = true ∧ FlagSound p.2) : ∀ p ∈ d, p.2.isNorm = true ∧ FlagSound p.2 := by
  induction l generalizing acc with
  | nil => simp only [mapStreams, Except.ok.injEq] at h; subst h; exact hacc
  | cons q qs ih =>
    obtain ⟨k, v⟩ := q
    simp only [mapStreams] at h
    rw [Except.bind_eq_ok'] at h
    obtain ⟨n, hn, h⟩ := h
    have hv := hl (k, v) (by simp)
    have hnf := normalize_flagSound hv hn
    have hnn : n.isNorm = true := by
      rw [normalize_eq hv] at hn
      obtain ⟨l', _, rfl⟩ := Except.map_eq_ok'.1 hn
      rfl
    apply ih _ (fun p hp => hl p (by simp [hp])) h
    clear ih h
    induction acc with
    | nil => intro p hp; simp [dictSet] at hp; subst hp; exact ⟨hnn, hnf⟩
    | cons a as ih2 =>
      obtain ⟨ka, va⟩ := a
      intro p hp
      simp only [dictSet] at hp
      split at hp
      · rcases List.mem_cons.1 hp with rfl | hp
        · exact ⟨hnn, hnf⟩
        · exact hacc p (by simp [hp])
      · rcases List.mem_cons.1 hp with rfl | hp
        · exact hacc _ (by simp)
        · exact ih2 (fun p hp => hacc p (by simp [hp])) p hp

theorem normalize_values {c sn : Chan} (hc : ∀ p ∈ c.parse, FlagSound p.2)
    (hsn : c.normalize = .ok sn) : ∀ p ∈ sn.parse, p.2.isNorm = true ∧ FlagSound p.2 := by
  unfold Chan.normalize at hsn
  rw [Except.bind_eq_ok'] at hsn
  obtain ⟨d, hd, h⟩ := hsn
  cases h
  exact mapStreams_norm [] c.parse hc hd (by simp)

theorem forall2_map {α β} {R : α → β → Prop} (f : α → β) (l : List α) (h : ∀ a ∈ l, R a (f a)) :
    List.Forall₂ R l (l.map f) := by
  induction l with
  | nil => exact .nil
  | cons a as ih => exact .cons (h a (by simp)) (ih (fun b hb => h b (by simp [hb])))

/-- The spec string of a list of streams after dropping the empty ones. -/
def dropEmptySpec (streams : List (List Str)) : Str :=
  specOf (streams.filter (fun l => decide (l ≠ [])))

/-- C12: `difference` and `intersection` of channel specs.  `sn` is the normalization of the
left operand and `m` the channels of the fused right operand.  The result consists, in order, of the
filtered normalized streams, without the empty ones. -/
theorem C12_difference_intersection (c o : Chan) (hc : ∀ p ∈ c.parse, FlagSound p.2)
    {sn : Chan} (hsn : c.normalize = .ok sn) {m : List Str} (hm : o.fuse.asList = .ok m) :
    (∃ ds, List.Forall₂ (fun p l => DistinctInOrder p.2.parsed (· ∉ m) l) sn.parse ds ∧
      c.difference o = .ok ⟨dropEmptySpec ds, none⟩) ∧
    c.intersection o =
      .ok ⟨dropEmptySpec (sn.parse.map (fun p => p.2.parsed.filter (fun x => decide (x ∈ m)))), none⟩ := by
  have hv := normalize_values hc hsn
  have hp : ∀ p ∈ sn.parse.map Prod.snd, p.asList = .ok p.parsed := by
    intro p hp
    obtain ⟨q, hq, rfl⟩ := List.mem_map.1 hp
    simp [Fused.asList, Fused.normalize, (hv q hq).1]
  constructor
  · refine ⟨sn.parse.map (fun p => (oset p.2.parsed).filter (fun x => decide (x ∉ m))), ?_, ?_⟩
    · apply forall2_map
      intro p _
      exact ⟨(nodup_oset _).filter _, fun c => by simp [mem_oset], (pairwise_oset _).filter _⟩
    · unfold Chan.difference
      rw [hsn]
      simp only [Except.ok_bind']
      rw [filterStreams_ok _ (fun p => (oset p.parsed).filter (fun x => decide (x ∉ m)))]
      · simp [dropEmptySpec, specOf, List.map_map, Function.comp_def, Fused.spec]
      · intro p hp'
        simp [Fused.difference, Other.norm, hm, hp p hp']
  · unfold Chan.intersection
    rw [hsn]
    simp only [Except.ok_bind']
    rw [filterStreams_ok _ (fun p => p.parsed.filter (fun x => decide (x ∈ m)))]
    · simp [dropEmptySpec, specOf, List.map_map, Function.comp_def, Fused.spec]
    · intro p hp'
      simp [meet, Fused.intersection, Other.normIter, hm, hp p hp']

/-- C12 when the other spec can not be expanded: `difference` and `intersection` raise `TypeError` (unless there is
no stream at all), `union` appends its streams as they are written. -/
theorem C12_malformed (c o : Chan) (hc : ∀ p ∈ c.parse, FlagSound p.2) {sn : Chan} (hsn : c.normalize = .ok sn) :
    (∀ e, o.fuse.asList = .error e → sn.parse ≠ [] →
      c.difference o = .error .typeError ∧ c.intersection o = .error .typeError) ∧
    (∀ e, o.normalize = .error e →
      c.union o = .ok ⟨specOf ((sn.parse ++ o.parse).map (fun p => p.2.parsed)), none⟩) := by
  refine ⟨fun e he hne => ?_, fun e he => ?_⟩
  · have hv := normalize_values hc hsn
    obtain ⟨q, qs, hq⟩ := List.exists_cons_of_ne_nil hne
    have hp : q.2.asList = .ok q.2.parsed := by
      simp [Fused.asList, Fused.normalize, (hv q (by simp [hq])).1]
    constructor
    · simp [Chan.difference, hsn, hq, filterStreams, Fused.difference, Other.norm, hp, he, bind, Except.bind]
    · simp [Chan.intersection, hsn, hq, filterStreams, meet, hp, he, bind, Except.bind]
  · simp [Chan.union, hsn, he, specOf, List.map_map, Function.comp_def, Fused.spec]

example : (⟨p! "a,b|c", none⟩ : Chan).difference ⟨p! "b:", none⟩ = .error .typeError ∧
    (⟨p! "a,b|c", none⟩ : Chan).intersection ⟨p! "b:", none⟩ = .error .typeError ∧
    (⟨p! "a,b|c", none⟩ : Chan).union ⟨p! "b:", none⟩ = .ok ⟨p! "a,b|c,b:", none⟩ :=
  ⟨by decide, by decide, by decide⟩

/-- C12: `union` lists the normalized streams of both operands. -/
theorem C12_union (c o : Chan) {sn on : Chan} (hsn : c.normalize = .ok sn)
    (hon : o.normalize = .ok on) :
    c.union o = .ok ⟨specOf ((sn.parse ++ on.parse).map (fun p => p.2.parsed)), none⟩ := by
  simp [Chan.union, hsn, hon, specOf, List.map_map, Function.comp_def, Fused.spec]

/-- C12: the streams of `normalize()` are the normalized streams, when these are distinct. -/
theorem C12_normalize_streams (ss lss : List (List Str)) (hne : ss ≠ [])
    (hok : ∀ g ∈ ss, StreamOk g) (hnd : ss.Nodup)
    (hl : ss.map (fun g => Fused.asList ⟨g, false⟩) = lss.map .ok)
    (hdist : (lss.map (joinWith '|')).Nodup) :
    ∃ sn, Chan.normalize ⟨specOf ss, none⟩ = .ok sn ∧ sn.spec = specOf lss ∧
      sn.parse.map (fun p => p.2.parsed) = lss := by
  have key : ∀ (ss lss : List (List Str)) (acc : List (Str × Fused)),
      ss.map (fun g => Fused.asList ⟨g, false⟩) = lss.map .ok →
      (acc.map Prod.fst ++ lss.map (joinWith '|')).Nodup →
      mapStreams Fused.normalize acc (ss.map (fun g => (joinWith '|' g, (⟨g, false⟩ : Fused)))) =
        .ok (acc ++ lss.map (fun l => (joinWith '|' l, (⟨l, true⟩ : Fused)))) := by
    intro ss
    induction ss with
    | nil => intro lss acc h _; cases lss <;> simp at h; simp [mapStreams]
    | cons s ss ih =>
      intro lss acc h hn
      cases lss with
      | nil => simp at h
      | cons l lss =>
        simp only [List.map_cons, List.cons.injEq] at h
        have h1 : Fused.normalize ⟨s, false⟩ = .ok ⟨l, true⟩ := by
          rw [normalize_eq (flagSound_false s)]
          rw [asList_false] at h
          rw [h.1]; rfl
        simp only [List.map_cons, mapStreams, h1, Except.ok_bind', Fused.spec]
        rw [dictSet_of_not_mem, ih lss _ h.2]
        · simp
        · simpa using hn
        · rw [List.nodup_append] at hn
          intro hm
          exact hn.2.2 _ hm _ (by simp) rfl
  unfold Chan.normalize
  rw [parse_specOf hne hok hnd, key ss lss [] hl (by simpa using hdist)]
  refine ⟨_, rfl, ?_, ?_⟩
  · simp [specOf, List.map_map, Function.comp_def]
  · simp [Chan.parse, List.map_map, Function.comp_def]

example : Chan.difference ⟨p! "rgb|x,b|g,m:2", none⟩ ⟨p! "g|b,m.0", none⟩ = .ok ⟨p! "r|x,m.1", none⟩ ∧
    Chan.intersection ⟨p! "rgb|x,b|g,m:2", none⟩ ⟨p! "g|b,m.0", none⟩ = .ok ⟨p! "g|b,b|g,m.0", none⟩ ∧
    Chan.union ⟨p! "rgb,x", none⟩ ⟨p! "m:2", none⟩ = .ok ⟨p! "r|g|b,x,m.0|m.1", none⟩ :=
  ⟨by decide, by decide, by decide⟩

/-- C09: a fused spec, read as a spec of one stream, keeps its codes whatever they are called, and so its number
of channels. -/
theorem C09_coerce_fused (f : Fused) :
    (AnySpec.toChan (.fused f)).numel = f.numel ∧ (AnySpec.toChan (.fused f)).spec = f.spec := by
  refine ⟨?_, rfl⟩
  simp only [AnySpec.toChan, Chan.ofFused, Chan.numel, Chan.sizes, Chan.parse, Chan.sizesLoop]
  cases f.numel with
  | error e => rfl
  | ok n => simp

/-- A code with a comma would be two streams when written down. -/
example : (AnySpec.toChan (.fused ⟨[p! "a,b"], false⟩)).numel = .ok 1 ∧ Chan.numel ⟨p! "a,b", none⟩ = .ok 2 :=
  ⟨by decide, by decide⟩

/-! ### C13 -/

@[simp] theorem anySpec_chan (c : Chan) : (AnySpec.chan c).spec = c.spec := rfl
theorem anySpec_toChan (x : AnySpec) : x.toChan.spec = x.spec := by cases x <;> rfl

/-- C13: `+` is associative. -/
theorem C13_late_fuse_assoc (a b c : AnySpec) :
    AnySpec.lateFuse (AnySpec.lateFuse a b) c = AnySpec.lateFuse a (AnySpec.lateFuse b c) := by
  unfold AnySpec.lateFuse
  by_cases ha : a.spec = [] <;> by_cases hb : b.spec = [] <;> by_cases hc : c.spec = [] <;>
    simp [ha, hb, hc]

/-- C13: a spec with the empty string is neutral on both sides (on the right, up to the class of
the empty operand). -/
theorem C13_late_fuse_identity (e a : AnySpec) (he : e.spec = []) :
    AnySpec.lateFuse e a = a ∧ (AnySpec.lateFuse a e).spec = a.spec ∧
    (a.spec ≠ [] → AnySpec.lateFuse a e = a) := by
  unfold AnySpec.lateFuse
  refine ⟨by simp [he], ?_, ?_⟩
  · by_cases ha : a.spec = [] <;> simp [ha, he]
  · intro ha; simp [ha, he]

/-- C13: the streams of `a + b` are those of `a` followed by those of `b`. -/
theorem C13_late_fuse_streams (a b : AnySpec) (ha : a.spec ≠ []) (hb : b.spec ≠ []) :
    (AnySpec.lateFuse a b).toChan.keys = a.toChan.keys ++ b.toChan.keys := by
  unfold Chan.keys
  rw [anySpec_toChan, anySpec_toChan, anySpec_toChan]
  unfold AnySpec.lateFuse
  simp only [ha, hb, if_false, anySpec_chan]
  exact splitOn_append ',' _ _

/-- C13: `sum(specs)` of a nonempty list has the streams of all nonempty operands in order. -/
theorem C13_sum_streams (l : List AnySpec) (hne : l ≠ []) :
    ∃ s, AnySpec.sumSpecs l = some s ∧
      s.spec = joinWith ',' ((l.map AnySpec.spec).filter (fun x => decide (x ≠ []))) := by
  cases l with
  | nil => exact absurd rfl hne
  | cons a rest =>
    refine ⟨_, rfl, ?_⟩
    clear hne
    have step : ∀ x y : AnySpec, (AnySpec.lateFuse x y).spec =
        joinWith ',' (([x.spec, y.spec]).filter (fun x => decide (x ≠ []))) := by
      intro x y
      unfold AnySpec.lateFuse
      by_cases hx : x.spec = [] <;> by_cases hy : y.spec = [] <;>
        simp [hx, hy, joinWith]
    induction rest generalizing a with
    | nil =>
      by_cases ha : a.spec = [] <;> simp [ha, joinWith]
    | cons b bs ih =>
      simp only [List.foldl_cons]
      rw [ih (AnySpec.lateFuse a b)]
      simp only [List.map_cons, step]
      have jc : ∀ (u v : Str) (ws : List Str),
          joinWith ',' ((u ++ ',' :: v) :: ws) = joinWith ',' (u :: v :: ws) := by
        intro u v ws
        cases ws <;> simp [joinWith]
      by_cases ha : a.spec = [] <;> by_cases hb : b.spec = [] <;>
        simp [ha, hb, joinWith, jc]

/-- C13 is false for string operands: a nonempty spec plus any string raises `TypeError`, and an
empty spec plus a string returns the string itself instead of a spec. -/
theorem C13_string_operand_violated (a : AnySpec) (s : Str) :
    (a.spec ≠ [] → AnySpec.lateFuseStr a s = .error .typeError) ∧
    (a.spec = [] → AnySpec.lateFuseStr a s = .ok (.str s)) := by
  unfold AnySpec.lateFuseStr
  exact ⟨fun h => by simp [h], fun h => by simp [h]⟩

example : AnySpec.sumSpecs [.fused ⟨[p! "a", p! "b"], false⟩, .chan ⟨[], none⟩,
    .chan ⟨p! "c,d", none⟩] = some (.chan ⟨p! "a|b,c,d", none⟩) := by decide

end Verif.Props
