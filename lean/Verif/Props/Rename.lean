/-
C80: naming the channels of an image that exists.
-/
import Verif.Rename
import Verif.ChannelSpecLemmas
import Verif.Props.Fused

namespace Verif.Props

open Rename Fused

/-! #### specification -/

/-- The object `j` is made from the object `i` (or is `i`). -/
def Sees : List Thing → Nat → Nat → Prop
  | [], _, _ => False
  | t :: σ, j, i =>
    if j = σ.length then
      i = j ∨ match t with
        | .leaf _ _ => False
        | .keep s _ => Sees σ s i
        | .select s _ _ => Sees σ s i
        | .concat ps _ => ∃ p ∈ ps, Sees σ p i
    else Sees σ j i

/-- `v` is a number or a spec of as many channels as there are bands. -/
def Fits : Val → Nat → Prop
  | .none, _ => False
  | .count n, b => n = b
  | .spec f, b => Props.Built f ∧ ∃ c, f.asList = .ok c ∧ c.length = b

/-- A leaf is made with, or an image (that shows something) is given, as many channels as it has bands. -/
def GivesFit (σ : List Thing) : Act → Prop
  | .leaf b v => Fits v b
  | .assign i v => ∃ l, shows σ i = .ok l ∧ Fits v l.length
  | _ => True

/-- A leaf or an image is given a spec. -/
def GivesSpec : Act → Prop
  | .leaf _ v => ∃ f, v = .spec f
  | .assign _ v => ∃ f, v = .spec f
  | _ => True

/-- Every leaf is made with, and every image is given, as many channels as it has bands. -/
def Careful : List Thing → List Act → Prop
  | _, [] => True
  | σ, a :: as => GivesFit σ a ∧ ∀ σ', step σ a = .ok σ' → Careful σ' as

/-- Every leaf and every image is given a spec. -/
def Named (P : List Act) : Prop :=
  ∀ a ∈ P, GivesSpec a

/-- The program selects no channels of images made from `i`, and assigns to no image that `i` is made of. -/
def Apart (i : Nat) : List Thing → List Act → Prop
  | _, [] => True
  | σ, a :: as =>
    (match a with
      | .select s _ => ¬ Sees σ s i
      | .assign k _ => ¬ Sees σ i k
      | _ => True) ∧
    ∀ σ', step σ a = .ok σ' → Apart i σ' as

/-! #### proofs -/

theorem setMeta_len : ∀ {σ τ : List Thing} {i : Nat} {m : Meta}, setMeta σ i m = .ok τ →
    τ.length = σ.length ∧ i < σ.length
  | [], _, _, _, h => by cases h
  | t :: σ, τ, i, m, h => by
    unfold setMeta at h
    by_cases hi : i = σ.length
    · rw [if_pos hi] at h
      cases t <;> cases h <;> simp [hi]
    · rw [if_neg hi] at h
      cases hs : setMeta σ i m with
      | error e => rw [hs] at h; cases h
      | ok σ' =>
        rw [hs] at h
        cases h
        have := setMeta_len hs
        simp only [List.length_cons]
        omega

theorem setMeta_shows : ∀ {σ τ : List Thing} {i : Nat} {m : Meta}, setMeta σ i m = .ok τ →
    ∀ j, shows τ j = shows σ j
  | [], _, _, _, h => by cases h
  | t :: σ, τ, i, m, h => by
    intro j
    unfold setMeta at h
    by_cases hi : i = σ.length
    · rw [if_pos hi] at h
      cases t <;> cases h <;> rfl
    · rw [if_neg hi] at h
      cases hs : setMeta σ i m with
      | error e => rw [hs] at h; cases h
      | ok σ' =>
        rw [hs] at h
        cases h
        have hl := (setMeta_len hs).1
        have ih := setMeta_shows hs
        unfold shows
        rw [hl]
        by_cases hj : j = σ.length
        · rw [if_pos hj, if_pos hj]
          cases t <;> simp only [ih]
        · rw [if_neg hj, if_neg hj, ih]

theorem setMeta_at : ∀ {σ τ : List Thing} {i : Nat} {m : Meta}, setMeta σ i m = .ok τ →
    (∀ f, m.chans = some f → channels τ i = some f) ∧ ∀ n, m.num = some n → numChannels τ i = some n
  | [], _, _, _, h => by cases h
  | t :: σ, τ, i, m, h => by
    unfold setMeta at h
    by_cases hi : i = σ.length
    · rw [if_pos hi] at h
      cases t <;> cases h <;> refine ⟨fun f hf => ?_, fun n hn => ?_⟩ <;>
        simp [channels, numChannels, hi, *]
    · rw [if_neg hi] at h
      cases hs : setMeta σ i m with
      | error e => rw [hs] at h; cases h
      | ok σ' =>
        rw [hs] at h
        cases h
        have hl := (setMeta_len hs).1
        have ih := setMeta_at hs
        simp only [channels, numChannels, hl, if_neg hi]
        exact ih

theorem sees_self : ∀ {σ : List Thing} {i : Nat}, i < σ.length → Sees σ i i
  | [], _, h => by cases h
  | t :: σ, i, h => by
    unfold Sees
    by_cases hi : i = σ.length
    · rw [if_pos hi]; exact .inl rfl
    · rw [if_neg hi]
      exact sees_self (by simp only [List.length_cons] at h; omega)

theorem setMeta_unseen : ∀ {σ τ : List Thing} {i : Nat} {m : Meta}, setMeta σ i m = .ok τ →
    ∀ j, ¬ Sees σ j i → channels τ j = channels σ j ∧ numChannels τ j = numChannels σ j
  | [], _, _, _, h => by cases h
  | t :: σ, τ, i, m, h => by
    intro j hj
    unfold setMeta at h
    unfold Sees at hj
    by_cases hi : i = σ.length
    · rw [if_pos hi] at h
      have hji : j ≠ σ.length := by
        intro e
        rw [if_pos e] at hj
        exact hj (.inl (by omega))
      cases t <;> cases h <;> simp only [channels, numChannels, if_neg hji] <;> exact ⟨trivial, trivial⟩
    · rw [if_neg hi] at h
      cases hs : setMeta σ i m with
      | error e => rw [hs] at h; cases h
      | ok σ' =>
        rw [hs] at h
        cases h
        have hl := (setMeta_len hs).1
        have ih := setMeta_unseen hs
        by_cases hjl : j = σ.length
        · rw [if_pos hjl, not_or] at hj
          cases t with
          | leaf b m' => simp only [channels, numChannels, hl, if_pos hjl, and_self]
          | keep s m' =>
            have := ih s hj.2
            simp only [channels, numChannels, hl, if_pos hjl, this.1, this.2, and_self]
          | select s idxs m' =>
            have := ih s hj.2
            simp only [channels, numChannels, hl, if_pos hjl, this.1, this.2, and_self]
          | concat ps n =>
            have : ps.map (fun p => channels σ' p) = ps.map (fun p => channels σ p) :=
              List.map_congr_left fun p hp => (ih p fun hc => hj.2 ⟨p, hp, hc⟩).1
            simp only [channels, numChannels, hl, if_pos hjl, this, and_self]
        · rw [if_neg hjl] at hj
          have := ih j hj
          simp only [channels, numChannels, hl, if_neg hjl, this.1, this.2, and_self]

theorem setMeta_num : ∀ {σ τ : List Thing} {i n : Nat} {m : Meta}, setMeta σ i m = .ok τ →
    numChannels σ i = some n → m.num = some n → ∀ j, numChannels τ j = numChannels σ j
  | [], _, _, _, _, h, _, _ => by cases h
  | t :: σ, τ, i, n, m, h, hn, hm => by
    intro j
    have hat := (setMeta_at h).2 n hm
    unfold setMeta at h
    by_cases hi : i = σ.length
    · by_cases hj : j = σ.length
      · rw [show j = i by omega, hat, hn]
      · rw [if_pos hi] at h
        cases t <;> cases h <;> simp only [numChannels, if_neg hj]
    · rw [if_neg hi] at h
      cases hs : setMeta σ i m with
      | error e => rw [hs] at h; cases h
      | ok σ' =>
        rw [hs] at h
        cases h
        have hl := (setMeta_len hs).1
        have ih := setMeta_num hs (by simpa only [numChannels, if_neg hi] using hn) hm
        unfold numChannels
        rw [hl]
        by_cases hj : j = σ.length
        · rw [if_pos hj, if_pos hj]
          cases t <;> simp only [ih]
        · rw [if_neg hj, if_neg hj, ih]

theorem setMeta_comm : ∀ {σ τ : List Thing} {i k : Nat} {m m' : Meta}, k ≠ i → setMeta σ i m = .ok τ →
    (∀ e, setMeta σ k m' = .error e → setMeta τ k m' = .error e) ∧
    ∀ σ', setMeta σ k m' = .ok σ' → ∃ τ', setMeta τ k m' = .ok τ' ∧ setMeta σ' i m = .ok τ'
  | [], _, _, _, _, _, _, h => by cases h
  | t :: σ, τ, i, k, m, m', hk, h => by
    unfold setMeta at h
    by_cases hi : i = σ.length
    · rw [if_pos hi] at h
      have hks : k ≠ σ.length := by omega
      have key : ∀ t' : Thing, (∀ σ', setMeta (t :: σ') i m = if i = σ'.length then .ok (t' :: σ') else
          setMeta (t :: σ') i m) →
          (∀ e, setMeta (t :: σ) k m' = .error e → setMeta (t' :: σ) k m' = .error e) ∧
          ∀ σ', setMeta (t :: σ) k m' = .ok σ' → ∃ τ', setMeta (t' :: σ) k m' = .ok τ' ∧
            setMeta σ' i m = .ok τ' := by
        intro t' ht
        simp only [setMeta, if_neg hks]
        cases hs : setMeta σ k m' with
        | error e => exact ⟨fun e' he => he, fun σ' he => by cases he⟩
        | ok σ2 =>
          refine ⟨fun e' he => (by cases he), fun σ' he => ?_⟩
          cases he
          refine ⟨_, rfl, ?_⟩
          rw [ht σ2, if_pos (by rw [(setMeta_len hs).1]; exact hi)]
      cases t with
      | leaf b m0 => cases h; exact key _ fun σ' => by by_cases e : i = σ'.length <;> simp [setMeta, e]
      | keep s m0 => cases h; exact key _ fun σ' => by by_cases e : i = σ'.length <;> simp [setMeta, e]
      | select s idxs m0 => cases h; exact key _ fun σ' => by by_cases e : i = σ'.length <;> simp [setMeta, e]
      | concat ps n => cases h
    · rw [if_neg hi] at h
      cases hs : setMeta σ i m with
      | error e => rw [hs] at h; cases h
      | ok σ1 =>
        rw [hs] at h
        cases h
        have hl := (setMeta_len hs).1
        by_cases hks : k = σ.length
        · unfold setMeta
          rw [hl, if_pos hks, if_pos hks]
          cases t with
          | concat ps n => exact ⟨fun e he => he, fun σ' he => by cases he⟩
          | _ =>
            refine ⟨fun e he => (by cases he), fun σ' he => ?_⟩
            cases he
            refine ⟨_, rfl, ?_⟩
            simp only [if_neg hi, hs]
        · have ih := setMeta_comm (m' := m') hk hs
          unfold setMeta
          rw [hl, if_neg hks, if_neg hks]
          cases hk' : setMeta σ k m' with
          | error e =>
            refine ⟨fun e' he => ?_, fun σ' he => by cases he⟩
            rw [ih.1 e hk']
            exact he
          | ok σ2 =>
            obtain ⟨τ2, h1, h2⟩ := ih.2 σ2 hk'
            refine ⟨fun e' he => (by cases he), fun σ' he => ?_⟩
            cases he
            rw [h1]
            refine ⟨_, rfl, ?_⟩
            simp only [if_neg (show ¬ i = σ2.length by rw [(setMeta_len hk').1]; exact hi), h2]

theorem step_comm {σ τ : List Thing} {i n : Nat} {m : Meta} (h : setMeta σ i m = .ok τ)
    (hn : numChannels σ i = some n) (hm : m.num = some n) (a : Act)
    (ha : match a with
      | .select s _ => ¬ Sees σ s i
      | .assign k _ => ¬ Sees σ i k
      | _ => True) :
    (∀ e, step σ a = .error e → step τ a = .error e) ∧
    ∀ σ', step σ a = .ok σ' → ∃ τ', step τ a = .ok τ' ∧ setMeta σ' i m = .ok τ' ∧ numChannels σ' i = some n := by
  have hl := setMeta_len h
  have hne : i ≠ σ.length := by omega
  have push : ∀ t : Thing, setMeta (t :: σ) i m = .ok (t :: τ) ∧ numChannels (t :: σ) i = some n := fun t => by
    simp only [setMeta, numChannels, if_neg hne, h, hn, and_self]
  cases a with
  | leaf b v =>
    simp only [step]
    cases v.meta with
    | error e => exact ⟨fun e' he => he, fun σ' he => by cases he⟩
    | ok mv => exact ⟨fun e' he => (by cases he), fun σ' he => by cases he; exact ⟨_, rfl, push _⟩⟩
  | keep j =>
    simp only [step, hl.1]
    by_cases hj : j < σ.length
    · simp only [if_pos hj]
      exact ⟨fun e' he => (by cases he), fun σ' he => by cases he; exact ⟨_, rfl, push _⟩⟩
    · simp only [if_neg hj]
      exact ⟨fun e' he => he, fun σ' he => by cases he⟩
  | select s idxs =>
    simp only at ha
    simp only [step, hl.1, (setMeta_unseen h s ha).1]
    by_cases hj : s < σ.length
    · simp only [if_pos hj]
      cases selected (channels σ s) idxs with
      | error e => exact ⟨fun e' he => he, fun σ' he => by cases he⟩
      | ok v =>
        simp only
        cases v.meta with
        | error e => exact ⟨fun e' he => he, fun σ' he => by cases he⟩
        | ok mv => exact ⟨fun e' he => (by cases he), fun σ' he => by cases he; exact ⟨_, rfl, push _⟩⟩
    · simp only [if_neg hj]
      exact ⟨fun e' he => he, fun σ' he => by cases he⟩
  | concat is =>
    simp only [step, hl.1, setMeta_num h hn hm]
    by_cases hj : is.all (fun i => decide (i < σ.length)) = true
    · simp only [if_pos hj]
      exact ⟨fun e' he => (by cases he), fun σ' he => by cases he; exact ⟨_, rfl, push _⟩⟩
    · simp only [if_neg hj]
      exact ⟨fun e' he => he, fun σ' he => by cases he⟩
  | assign k v =>
    simp only at ha
    simp only [step]
    have hki : k ≠ i := fun e => ha (by rw [e]; exact sees_self hl.2)
    cases v.meta with
    | error e => exact ⟨fun e' he => he, fun σ' he => by cases he⟩
    | ok mv =>
      simp only
      have := setMeta_comm (m' := mv) hki h
      refine ⟨this.1, fun σ' he => ?_⟩
      obtain ⟨τ', h1, h2⟩ := this.2 σ' he
      exact ⟨τ', h1, h2, by rw [(setMeta_unseen he i ha).2, hn]⟩

theorem run_append : ∀ (σ : List Thing) (P Q : List Act), run σ (P ++ Q) =
    match run σ P with | .error e => .error e | .ok σ' => run σ' Q
  | σ, [], Q => rfl
  | σ, a :: P, Q => by
    simp only [List.cons_append, run]
    cases step σ a with
    | error e => rfl
    | ok σ' => exact run_append σ' P Q

theorem run_comm {i n : Nat} {m : Meta} (hm : m.num = some n) : ∀ (P : List Act) {σ τ : List Thing},
    setMeta σ i m = .ok τ → numChannels σ i = some n → Apart i σ P →
    (∀ e, run σ P = .error e → run τ P = .error e) ∧
    ∀ σ', run σ P = .ok σ' → ∃ τ', run τ P = .ok τ' ∧ setMeta σ' i m = .ok τ'
  | [], σ, τ, h, hn, _ => ⟨fun e he => (by cases he), fun σ' he => by cases he; exact ⟨τ, rfl, h⟩⟩
  | a :: P, σ, τ, h, hn, hA => by
    obtain ⟨s1, s2⟩ := step_comm h hn hm a hA.1
    simp only [run]
    cases hs : step σ a with
    | error e =>
      rw [s1 e hs]
      exact ⟨fun e' he => he, fun σ' he => by cases he⟩
    | ok σ1 =>
      obtain ⟨τ1, h1, h2, h3⟩ := s2 σ1 hs
      rw [h1]
      exact run_comm hm P h2 h3 (hA.2 σ1 hs)

theorem meta_spec {f : Fused} (hf : Fused.FlagSound f) {m : Meta} (h : (Val.spec f).meta = .ok m) :
    ∃ c, f.asList = .ok c ∧ m = ⟨some f, some c.length⟩ := by
  unfold Val.meta at h
  simp only at h
  cases hg : f.normalize with
  | error e => rw [hg] at h; cases h
  | ok g =>
    rw [hg] at h
    simp only at h
    have hgn : g.isNorm = true := by
      rw [normalize_eq hf] at hg
      obtain ⟨l, _, rfl⟩ := Except.map_eq_ok'.1 hg
      rfl
    rw [show g.numel = .ok g.parsed.length by simp [Fused.numel, hgn]] at h
    cases h
    exact ⟨g.parsed, by simp [Fused.asList, hg], rfl⟩

/-- C80: assigning a spec to the channels of an image raises nothing unless the spec cannot be read (or the image is
a concat); the image then has this spec and as many channels as it names.  Images that are not made from it keep
their names, and no image changes what it shows. -/
theorem C80_assign {f : Fused} (hf : Props.Built f) {σ : List Thing} {i : Nat} (hi : i < σ.length) :
    ((∃ σ', step σ (.assign i (.spec f)) = .ok σ') ↔
      (∃ c, f.asList = .ok c) ∧ ∃ σ', step σ (.assign i .none) = .ok σ') ∧
    ∀ σ', step σ (.assign i (.spec f)) = .ok σ' →
      channels σ' i = some f ∧ (∃ c, f.asList = .ok c ∧ numChannels σ' i = some c.length) ∧
      (∀ j, shows σ' j = shows σ j) ∧
      ∀ j, ¬ Sees σ j i → channels σ' j = channels σ j ∧ numChannels σ' j = numChannels σ j := by
  have any : ∀ (σ : List Thing) (m m' : Meta) (τ : List Thing), setMeta σ i m = .ok τ → ∃ τ', setMeta σ i m' = .ok τ' := by
    intro σ m m'
    induction σ with
    | nil => intro τ h; cases h
    | cons t σ ih =>
      intro τ h
      unfold setMeta at h ⊢
      by_cases hi : i = σ.length
      · rw [if_pos hi] at h ⊢
        cases t with
        | concat ps n => cases h
        | _ => exact ⟨_, rfl⟩
      · rw [if_neg hi] at h ⊢
        cases hs : setMeta σ i m with
        | error e => rw [hs] at h; cases h
        | ok σ1 =>
          obtain ⟨τ', h'⟩ := ih σ1 hs
          rw [h']
          exact ⟨_, rfl⟩
  refine ⟨⟨?_, ?_⟩, ?_⟩
  · rintro ⟨σ', h⟩
    simp only [step] at h ⊢
    cases hm : (Val.spec f).meta with
    | error e => rw [hm] at h; cases h
    | ok m =>
      rw [hm] at h
      obtain ⟨c, hc, -⟩ := meta_spec hf.flagSound hm
      exact ⟨⟨c, hc⟩, any _ _ _ _ h⟩
  · rintro ⟨⟨c, hc⟩, σ', h⟩
    have hm : ∃ m, (Val.spec f).meta = .ok m := by
      unfold Val.meta
      simp only
      unfold Fused.asList at hc
      cases hg : f.normalize with
      | error e => rw [hg] at hc; cases hc
      | ok g =>
        have hgn : g.isNorm = true := by
          rw [normalize_eq hf.flagSound] at hg
          obtain ⟨l, _, rfl⟩ := Except.map_eq_ok'.1 hg
          rfl
        simp [Fused.numel, hgn]
    obtain ⟨m, hm⟩ := hm
    simp only [step, Val.meta] at h
    obtain ⟨τ', h'⟩ := any _ _ m _ h
    exact ⟨τ', by simp only [step, hm, h']⟩
  · intro σ' h
    simp only [step] at h
    cases hm : (Val.spec f).meta with
    | error e => rw [hm] at h; cases h
    | ok m =>
      rw [hm] at h
      obtain ⟨c, hc, rfl⟩ := meta_spec hf.flagSound hm
      have := setMeta_at h
      exact ⟨this.1 f rfl, ⟨c, hc, this.2 _ rfl⟩, setMeta_shows h, setMeta_unseen h⟩

/-- C80: it does not matter when an image gets its names, as long as the number of its channels stays and nothing
is selected by the names in between: everything done before can as well be done after.  In particular the
image could have been made with these names. -/
theorem C80_when_partial {f : Fused} (hf : Props.Built f) {σ τ : List Thing} {i : Nat} {P : List Act}
    (hτ : step σ (.assign i (.spec f)) = .ok τ) {c : List Str} (hc : f.asList = .ok c)
    (hn : numChannels σ i = some c.length) (hP : Apart i σ P) :
    run σ (P ++ [.assign i (.spec f)]) = run σ (.assign i (.spec f) :: P) := by
  rw [run_append]
  simp only [run, hτ]
  simp only [step] at hτ ⊢
  cases hm : (Val.spec f).meta with
  | error e => rw [hm] at hτ; cases hτ
  | ok m =>
    rw [hm] at hτ
    simp only at hτ ⊢
    obtain ⟨c', hc', rfl⟩ := meta_spec hf.flagSound hm
    rw [hc] at hc'
    cases hc'
    obtain ⟨r1, r2⟩ := run_comm (m := ⟨some f, some c.length⟩) rfl P hτ hn hP
    cases hr : run σ P with
    | error e => rw [r1 e hr]
    | ok σ' =>
      obtain ⟨τ', h1, h2⟩ := r2 σ' hr
      rw [h1]
      simp only [h2]

/-- A leaf of three bands named `a|b|c`, a view of it, and a concat of both; afterwards the leaf gets other names. -/
def relabel : List Act :=
  [.keep 0, .concat [0, 1], .keep 2, .leaf 1 (.count 1), .select 4 [0]]

example : ∃ τ, step [.leaf 3 ⟨some (parse (p! "a|b|c")), some 3⟩] (.assign 0 (.spec (parse (p! "rgb")))) = .ok τ ∧
    (parse (p! "rgb")).asList = .ok [p! "r", p! "g", p! "b"] ∧
    Apart 0 [.leaf 3 ⟨some (parse (p! "a|b|c")), some 3⟩] relabel := by
  refine ⟨_, rfl, by decide, ?_⟩
  refine ⟨trivial, fun _ h => ?_⟩
  cases h
  refine ⟨trivial, fun _ h => ?_⟩
  cases h
  refine ⟨trivial, fun _ h => ?_⟩
  cases h
  refine ⟨trivial, fun _ h => ?_⟩
  cases h
  refine ⟨by simp [Sees], fun _ h => ?_⟩
  cases h
  trivial

/-- What the end of `C80_when_partial` says of this program: all names follow. -/
example : ∃ σ, run [] ((.leaf 3 (.spec (parse (p! "a|b|c"))) :: relabel) ++ [.assign 0 (.spec (parse (p! "rgb")))]) = .ok σ ∧
    (channels σ 3).map Fused.asList =
      some (.ok [p! "r", p! "g", p! "b", p! "r", p! "g", p! "b"]) := ⟨_, rfl, by decide⟩

/-! ### the number of channels -/

/-- The names are as many as the bands. -/
def SpecFits (f : Fused) (b : Nat) : Prop := Fused.FlagSound f ∧ ∃ c, f.asList = .ok c ∧ c.length = b

/-- The metadata of an object is right about the number of bands. -/
def MetaFits (m : Meta) (b : Nat) : Prop :=
  (∀ n, m.num = some n → n = b) ∧ ∀ f, m.chans = some f → SpecFits f b

/-- The metadata of all objects is right; if `named`, leaves and crops have names. -/
def OwnFits (named : Bool) : List Thing → Prop
  | [] => True
  | t :: σ => OwnFits named σ ∧
    (match t with
      | .leaf _ m => ∀ f, m.chans = some f → Fused.FlagSound f
      | .select _ _ m => ∀ f, m.chans = some f → Fused.FlagSound f
      | .keep _ m => ∀ f, m.chans = some f → Fused.FlagSound f
      | .concat _ _ => True) ∧
    (match t with
      | .leaf _ m => m.num ≠ none ∧ (named = true → m.chans ≠ none)
      | .select _ _ m => m.num ≠ none ∧ (named = true → m.chans ≠ none)
      | .keep s _ => s < σ.length
      | .concat ps _ => ∀ p ∈ ps, p < σ.length) ∧
    ∀ l, shows (t :: σ) σ.length = .ok l →
      match t with
      | .leaf _ m => MetaFits m l.length
      | .keep _ m => MetaFits m l.length
      | .select _ _ m => MetaFits m l.length
      | .concat _ n => n = some l.length

theorem Fits.meta {v : Val} {b : Nat} (h : Fits v b) {m : Meta} (hm : v.meta = .ok m) :
    MetaFits m b ∧ m.num ≠ none ∧ ((∃ f, v = .spec f) → m.chans ≠ none) := by
  cases v with
  | none => cases h
  | count n =>
    cases hm
    refine ⟨⟨fun k hk => ?_, fun f hf => by cases hf⟩, by simp, fun ⟨f, hf⟩ => by cases hf⟩
    cases hk
    exact h
  | spec f =>
    obtain ⟨hb, c, hc, hl⟩ := h
    obtain ⟨c', hc', rfl⟩ := meta_spec hb.flagSound hm
    rw [hc] at hc'
    cases hc'
    refine ⟨⟨fun k hk => ?_, fun g hg => ?_⟩, by simp, fun _ => by simp⟩
    · cases hk; exact hl
    · cases hg; exact ⟨hb.flagSound, c, hc, hl⟩

theorem seqOf_ok {α β : Type} (g : α → Py β) : ∀ {ps : List α} {r : List β}, seqOf (ps.map g) = .ok r →
    List.Forall₂ (fun p b => g p = .ok b) ps r
  | [], r, h => by cases h; exact .nil
  | p :: ps, r, h => by
    simp only [List.map_cons, seqOf] at h
    cases hp : g p with
    | error e => rw [hp] at h; cases h
    | ok b =>
      rw [hp] at h
      simp only at h
      cases hs : seqOf (ps.map g) with
      | error e => rw [hs] at h; cases h
      | ok bs =>
        rw [hs] at h
        cases h
        exact .cons hp (seqOf_ok g hs)

theorem allOf_some {α β : Type} (g : α → Option β) : ∀ {ps : List α} {r : List β}, allOf (ps.map g) = some r →
    List.Forall₂ (fun p b => g p = some b) ps r
  | [], r, h => by cases h; exact .nil
  | p :: ps, r, h => by
    simp only [List.map_cons, allOf] at h
    cases hp : g p with
    | none => rw [hp] at h; cases h
    | some b =>
      rw [hp] at h
      cases hs : allOf (ps.map g) with
      | none => rw [hs] at h; cases h
      | some bs =>
        rw [hs] at h
        cases h
        exact .cons hp (allOf_some g hs)

theorem allOf_none {α β : Type} (g : α → Option β) : ∀ {ps : List α}, (∀ p ∈ ps, g p ≠ none) →
    allOf (ps.map g) ≠ none
  | [], _ => by simp [allOf]
  | p :: ps, h => by
    simp only [List.map_cons, allOf]
    have h1 := h p (by simp)
    have h2 := allOf_none g (ps := ps) fun q hq => h q (by simp [hq])
    cases hp : g p with
    | none => exact absurd hp h1
    | some b =>
      cases hs : allOf (ps.map g) with
      | none => exact absurd hs h2
      | some bs => simp

theorem num_known {named : Bool} : ∀ {σ : List Thing}, OwnFits named σ → ∀ {j : Nat} {l : List (Nat × Nat)},
    shows σ j = .ok l → numChannels σ j = some l.length
  | [], _, j, l, h => by cases h
  | t :: σ, hO, j, l, h => by
    by_cases hj : j = σ.length
    · have own := hO.2.2.2 l (hj ▸ h)
      have kn := hO.2.2.1
      unfold shows at h
      rw [if_pos hj] at h
      unfold numChannels
      rw [if_pos hj]
      cases t with
      | leaf b m =>
        simp only at own kn ⊢
        obtain ⟨n, hn⟩ := Option.ne_none_iff_exists'.1 kn.1
        rw [hn, own.1 n hn]
      | keep s m =>
        simp only at own h ⊢
        cases hm : m.num with
        | none => exact num_known hO.1 h
        | some k => simp only [own.1 k hm]
      | select s idxs m =>
        simp only at own kn ⊢
        obtain ⟨n, hn⟩ := Option.ne_none_iff_exists'.1 kn.1
        simp only [hn, own.1 n hn]
      | concat ps n =>
        simp only at own ⊢
        exact own
    · unfold shows at h
      rw [if_neg hj] at h
      unfold numChannels
      rw [if_neg hj]
      exact num_known hO.1 h

theorem nums_known {named : Bool} {σ : List Thing} (hO : OwnFits named σ) {ps : List Nat}
    {ls : List (List (Nat × Nat))} (h : List.Forall₂ (fun p l => shows σ p = .ok l) ps ls) :
    allOf (ps.map fun i => numChannels σ i) = some (ls.map List.length) := by
  induction h with
  | nil => rfl
  | cons hp hps ih =>
    rw [List.map_cons]
    unfold allOf
    rw [num_known hO hp, ih]
    rfl

theorem names_known : ∀ {σ : List Thing}, OwnFits true σ → ∀ {j : Nat}, j < σ.length → channels σ j ≠ none
  | [], _, j, h => by cases h
  | t :: σ, hO, j, h => by
    unfold channels
    by_cases hj : j = σ.length
    · have kn := hO.2.2.1
      rw [if_pos hj]
      cases t with
      | leaf b m => exact kn.2 rfl
      | keep s m =>
        simp only at kn ⊢
        cases hm : m.chans with
        | none => exact names_known hO.1 kn
        | some k => simp
      | select s idxs m =>
        simp only at kn ⊢
        obtain ⟨n, hn⟩ := Option.ne_none_iff_exists'.1 (kn.2 trivial)
        simp [hn]
      | concat ps n =>
        simp only at kn ⊢
        have := allOf_none (fun p => channels σ p) (ps := ps) fun p hp => names_known hO.1 (kn p hp)
        simpa using this
    · rw [if_neg hj]
      exact names_known hO.1 (by simp only [List.length_cons] at h; omega)

theorem names_fit : ∀ {σ : List Thing}, OwnFits true σ → ∀ {j : Nat} {l : List (Nat × Nat)},
    shows σ j = .ok l → ∀ f, channels σ j = some f → SpecFits f l.length
  | [], _, j, l, h => by cases h
  | t :: σ, hO, j, l, h => by
    have ih := fun {j : Nat} {l : List (Nat × Nat)} => names_fit hO.1 (j := j) (l := l)
    by_cases hj : j = σ.length
    · have own := hO.2.2.2 l (hj ▸ h)
      have kn := hO.2.2.1
      unfold shows at h
      rw [if_pos hj] at h
      intro f hf
      unfold channels at hf
      rw [if_pos hj] at hf
      cases t with
      | leaf b m => exact own.2 f hf
      | keep s m =>
        simp only at own h hf
        cases hm : m.chans with
        | none => rw [hm] at hf; exact ih h f hf
        | some k => rw [hm] at hf; cases hf; exact own.2 _ hm
      | select s idxs m =>
        simp only at own kn hf
        obtain ⟨k, hm⟩ := Option.ne_none_iff_exists'.1 (kn.2 trivial)
        rw [hm] at hf; cases hf; exact own.2 _ hm
      | concat ps n =>
        simp only at h own hf
        by_cases hp : ps = []
        · rw [if_pos hp] at h; cases h
        · rw [if_neg hp] at h
          obtain ⟨ls, hls, rfl⟩ := Except.map_eq_ok'.1 h
          have hf2 := seqOf_ok _ hls
          obtain ⟨fs, hfs, rfl⟩ := Option.map_eq_some_iff.1 hf
          refine ⟨Fused.flagSound_false _, ?_⟩
          have hf1 := allOf_some _ hfs
          unfold Fused.concat
          rw [asList_false]
          clear h hls hf hfs own hp kn hO
          induction hf2 generalizing fs with
          | nil => cases hf1; exact ⟨[], rfl, rfl⟩
          | cons hp hps ih2 =>
            cases hf1 with
            | cons hg hgs =>
              obtain ⟨c2, h3, h4⟩ := ih2 _ hgs
              obtain ⟨hfl, c1, h1, h2⟩ := ih hp _ hg
              rw [asList_eq hfl] at h1
              refine ⟨c1 ++ c2, ?_, by simp [h2, h4]⟩
              simp only [List.map_cons, List.flatten_cons, normParts_append, h1, h3]
              rfl
    · unfold shows at h
      rw [if_neg hj] at h
      unfold channels
      rw [if_neg hj]
      exact ih h

theorem channels_sound {named : Bool} : ∀ {σ : List Thing}, OwnFits named σ → ∀ {j : Nat} {f : Fused},
    channels σ j = some f → Fused.FlagSound f
  | [], _, j, f, h => by cases h
  | t :: σ, hO, j, f, h => by
    have fs := hO.2.1
    unfold channels at h
    by_cases hj : j = σ.length
    · rw [if_pos hj] at h
      cases t with
      | leaf b m => exact fs f h
      | keep s m =>
        simp only at fs h
        cases hm : m.chans with
        | none => rw [hm] at h; exact channels_sound hO.1 h
        | some k => rw [hm] at h; cases h; exact fs _ hm
      | select s idxs m =>
        simp only at fs h
        cases hm : m.chans with
        | none => rw [hm] at h; exact channels_sound hO.1 h
        | some k => rw [hm] at h; cases h; exact fs _ hm
      | concat ps n =>
        obtain ⟨fs, _, rfl⟩ := Option.map_eq_some_iff.1 h
        exact Fused.flagSound_false _
    · rw [if_neg hj] at h
      exact channels_sound hO.1 h

theorem getList_fits {f g : Fused} (hf : Fused.FlagSound f) {is : List Int} (h : f.getList is = .ok g) :
    SpecFits g is.length := by
  unfold Fused.getList at h
  rw [Except.bind_eq_ok'] at h
  obtain ⟨n, hn, h⟩ := h
  rw [Except.bind_eq_ok'] at h
  obtain ⟨r, hr, h⟩ := h
  cases h
  rw [normalize_eq hf] at hn
  obtain ⟨l, hl, rfl⟩ := Except.map_eq_ok'.1 hn
  obtain ⟨h1, h2, -⟩ := pyTake_spec hr
  refine ⟨Fused.flagSound_false _, r, ?_, h1⟩
  rw [asList_false]
  exact normParts_of_not_needs fun v hv => asList_needs hf (by rw [asList_eq hf]; exact hl) v (h2 v hv)

theorem setMeta_fits {named : Bool} {i : Nat} {m : Meta} (hk : m.num ≠ none) (hc : named = true → m.chans ≠ none)
    (hf : ∀ f, m.chans = some f → Fused.FlagSound f) :
    ∀ {σ τ : List Thing}, setMeta σ i m = .ok τ → OwnFits named σ →
    (∀ l, shows σ i = .ok l → MetaFits m l.length) → OwnFits named τ
  | [], _, h, _, _ => by cases h
  | t :: σ, τ, h, hO, hm => by
    have hsh := setMeta_shows h
    unfold setMeta at h
    by_cases hi : i = σ.length
    · rw [if_pos hi] at h
      rw [hi] at hm
      cases t with
      | leaf b m' => cases h; exact ⟨hO.1, hf, ⟨hk, hc⟩, fun l hl => hm l hl⟩
      | keep s m' => cases h; exact ⟨hO.1, hf, hO.2.2.1, fun l hl => hm l hl⟩
      | select s idxs m' => cases h; exact ⟨hO.1, hf, ⟨hk, hc⟩, fun l hl => hm l hl⟩
      | concat ps n => cases h
    · rw [if_neg hi] at h
      cases hs : setMeta σ i m with
      | error e => rw [hs] at h; cases h
      | ok σ' =>
        rw [hs] at h
        cases h
        have hl := (setMeta_len hs).1
        have ih := setMeta_fits hk hc hf hs hO.1 (by simpa only [shows, if_neg hi] using hm)
        refine ⟨ih, hO.2.1, ?_, fun l h => ?_⟩
        · rw [hl]; exact hO.2.2.1
        · rw [hl, hsh] at h
          exact hO.2.2.2 l h

theorem step_fits {named : Bool} {σ σ' : List Thing} {a : Act} (h : step σ a = .ok σ') (hO : OwnFits named σ)
    (hc : GivesFit σ a) (hn : named = true → GivesSpec a) : OwnFits named σ' := by
  cases a with
  | leaf b v =>
    simp only [step, GivesFit, GivesSpec] at h hc hn
    cases hm : v.meta with
    | error e => rw [hm] at h; cases h
    | ok m =>
      rw [hm] at h
      cases h
      obtain ⟨h1, h2, h3⟩ := hc.meta hm
      refine ⟨hO, fun f hf => (h1.2 f hf).1, ⟨h2, fun e => h3 (hn e)⟩, fun l hl => ?_⟩
      simp only [shows, if_true, Except.ok.injEq] at hl
      subst hl
      simpa using h1
  | keep i =>
    simp only [step] at h
    by_cases hi : i < σ.length
    · rw [if_pos hi] at h
      cases h
      exact ⟨hO, fun f hf => (by cases hf), hi, fun l hl => ⟨fun n hn => (by cases hn), fun f hf => by cases hf⟩⟩
    · rw [if_neg hi] at h; cases h
  | select i idxs =>
    simp only [step] at h
    by_cases hi : i < σ.length
    · rw [if_pos hi] at h
      cases hv : selected (channels σ i) idxs with
      | error e => rw [hv] at h; cases h
      | ok v =>
        rw [hv] at h
        simp only at h
        cases hm : v.meta with
        | error e => rw [hm] at h; cases h
        | ok m =>
          rw [hm] at h
          cases h
          have key : MetaFits m idxs.length ∧ m.num ≠ none ∧ (named = true → m.chans ≠ none) := by
            cases hch : channels σ i with
            | none =>
              rw [hch] at hv
              cases hv
              cases hm
              refine ⟨⟨fun n hn => by cases hn; rfl, fun f hf => by cases hf⟩, by simp, fun e => ?_⟩
              subst e
              exact absurd hch (names_known hO hi)
            | some f =>
              rw [hch] at hv
              simp only [selected] at hv
              cases hg : f.getList idxs with
              | error e => rw [hg] at hv; cases hv
              | ok g =>
                rw [hg] at hv
                cases hv
                have hg' := getList_fits (channels_sound hO hch) hg
                obtain ⟨c, hc', rfl⟩ := meta_spec hg'.1 hm
                obtain ⟨c', h1, h2⟩ := hg'.2
                rw [hc'] at h1
                cases h1
                exact ⟨⟨fun n hn => by cases hn; exact h2, fun k hk => by cases hk; exact hg'⟩, by simp,
                  fun _ => by simp⟩
          refine ⟨hO, fun f hf => (key.1.2 f hf).1, key.2, fun l hl => ?_⟩
          simp only [shows, if_true] at hl
          cases hsh : shows σ i with
          | error e => rw [hsh] at hl; cases hl
          | ok l' =>
            rw [hsh] at hl
            simp only at hl ⊢
            rw [(pyTake_spec hl).1]
            exact key.1
    · rw [if_neg hi] at h; cases h
  | concat is =>
    simp only [step] at h
    by_cases hi : is.all (fun i => decide (i < σ.length)) = true
    · rw [if_pos hi] at h
      cases h
      refine ⟨hO, trivial, fun p hp => by simpa using List.all_eq_true.1 hi p hp, fun l hl => ?_⟩
      simp only [shows, if_true] at hl
      by_cases hp : is = []
      · rw [if_pos hp] at hl; cases hl
      · rw [if_neg hp] at hl
        obtain ⟨ls, hls, rfl⟩ := Except.map_eq_ok'.1 hl
        have hf2 := seqOf_ok _ hls
        simp [nums_known hO hf2, List.length_flatten]
    · rw [if_neg hi] at h; cases h
  | assign i v =>
    simp only [step, GivesFit, GivesSpec] at h hc hn
    cases hm : v.meta with
    | error e => rw [hm] at h; cases h
    | ok m =>
      rw [hm] at h
      simp only at h
      obtain ⟨l0, hl0, hc⟩ := hc
      obtain ⟨h1, h2, h3⟩ := hc.meta hm
      refine setMeta_fits h2 (fun e => h3 (hn e)) (fun f hf => (h1.2 f hf).1) h hO fun l hl => ?_
      rw [hl0] at hl
      cases hl
      exact h1

theorem run_fits {named : Bool} : ∀ {P : List Act} {σ τ : List Thing}, run σ P = .ok τ → OwnFits named σ →
    Careful σ P → (named = true → Named P) → OwnFits named τ
  | [], σ, τ, h, hO, _, _ => by cases h; exact hO
  | a :: as, σ, τ, h, hO, hc, hn => by
    simp only [run] at h
    cases hs : step σ a with
    | error e => rw [hs] at h; cases h
    | ok σ' =>
      rw [hs] at h
      exact run_fits h (step_fits hs hO hc.1 fun e => hn e a (by simp)) (hc.2 σ' hs)
        fun e b hb => hn e b (by simp [hb])

/-- C80: whatever a program makes and renames, as long as every image is made with or given as many channels as it
has bands, every image announces as many channels as it shows. -/
theorem C80_number {P : List Act} (hc : Careful [] P) {τ : List Thing} (h : run [] P = .ok τ) {i : Nat}
    {l : List (Nat × Nat)} (hl : shows τ i = .ok l) : numChannels τ i = some l.length :=
  num_known (run_fits (named := false) h trivial hc (by simp)) hl

/-- C80 (partial): if names are given everywhere, every image also has as many names as it shows bands.  Missing:
images made with a number, see `C80_late_violated` and `C80_count_violated`. -/
theorem C80_names_partial {P : List Act} (hc : Careful [] P) (hn : Named P) {τ : List Thing} (h : run [] P = .ok τ)
    {i : Nat} {l : List (Nat × Nat)} (hl : shows τ i = .ok l) :
    ∃ f c, channels τ i = some f ∧ f.asList = .ok c ∧ c.length = l.length := by
  have hO := run_fits (named := true) h trivial hc fun _ => hn
  have hi : i < τ.length := by
    clear h hO
    induction τ with
    | nil => cases hl
    | cons t σ ih =>
      unfold shows at hl
      by_cases hi : i = σ.length
      · simp [hi]
      · rw [if_neg hi] at hl
        have := ih hl
        simp only [List.length_cons]; omega
  obtain ⟨f, hf⟩ := Option.ne_none_iff_exists'.1 (names_known hO hi)
  obtain ⟨-, c, hc, hl⟩ := names_fit hO hl f hf
  exact ⟨f, c, hf, hc, hl⟩

/-- A leaf of three bands, named later; between, a crop of its first band. -/
def lateNames : List Act :=
  [.leaf 3 (.count 3), .select 0 [0], .assign 0 (.spec (parse (p! "r|g|b")))]

theorem built_parse (s : Str) : Props.Built (parse s) := .ofStr s

example : Careful [] lateNames := by
  refine ⟨rfl, fun σ1 h1 => ⟨trivial, fun σ2 h2 => ⟨?_, fun _ _ => trivial⟩⟩⟩
  have e1 : σ1 = [.leaf 3 ⟨none, some 3⟩] := by
    have : step [] (.leaf 3 (.count 3)) = .ok [.leaf 3 ⟨none, some 3⟩] := rfl
    rw [this] at h1; exact (Except.ok.inj h1).symm
  subst e1
  have e2 : σ2 = [.select 0 [0] ⟨none, some 1⟩, .leaf 3 ⟨none, some 3⟩] := by
    have : step [.leaf 3 ⟨none, some 3⟩] (.select 0 [0]) =
      .ok [.select 0 [0] ⟨none, some 1⟩, .leaf 3 ⟨none, some 3⟩] := rfl
    rw [this] at h2; exact (Except.ok.inj h2).symm
  subst e2
  exact ⟨[(0, 0), (0, 1), (0, 2)], by decide +kernel, built_parse _, [p! "r", p! "g", p! "b"], by decide +kernel, rfl⟩

/-- C80: `crop = img[:, :, [0]]` of an image without names shows one band; naming the three channels of the image
afterwards gives the crop three names. -/
theorem C80_late_violated : ∃ σ, run [] lateNames = .ok σ ∧ shows σ 1 = .ok [(0, 0)] ∧ numChannels σ 1 = some 1 ∧
    channels σ 1 = some (parse (p! "r|g|b")) := by
  refine ⟨_, rfl, ?_⟩
  decide +kernel

/-- C80: the same crop made after the names has one name: it matters whether one names first. -/
theorem C80_late_crop_violated :
    ∃ σ, run [] [.leaf 3 (.count 3), .assign 0 (.spec (parse (p! "r|g|b"))), .select 0 [0]] = .ok σ ∧
      shows σ 1 = .ok [(0, 0)] ∧ channels σ 1 = some ⟨[p! "r"], false⟩ := by
  refine ⟨_, rfl, ?_⟩
  decide +kernel

/-- C80: a crop made before its image is renamed keeps the old name of the band. -/
theorem C80_stale_violated :
    ∃ σ, run [] [.leaf 3 (.spec (parse (p! "a|b|c"))), .select 0 [0], .assign 0 (.spec (parse (p! "r|g|b")))] = .ok σ ∧
      shows σ 1 = .ok [(0, 0)] ∧ channels σ 0 = some (parse (p! "r|g|b")) ∧
      channels σ 1 = some ⟨[p! "a"], false⟩ := by
  refine ⟨_, rfl, ?_⟩
  decide +kernel

/-- C80: assigning a number to the channels of a derived image does not remove its names: it shows those of the
image it is made from, which for a crop are of another number. -/
theorem C80_count_violated :
    ∃ σ, run [] [.leaf 3 (.spec (parse (p! "a|b|c"))), .select 0 [0], .assign 1 (.count 1)] = .ok σ ∧
      shows σ 1 = .ok [(0, 0)] ∧ numChannels σ 1 = some 1 ∧ channels σ 1 = some (parse (p! "a|b|c")) := by
  refine ⟨_, rfl, ?_⟩
  decide +kernel

/-- C80: after `crop.channels = None` the crop announces the channels of the image it was cropped from, also their
number. -/
theorem C80_none_violated :
    ∃ σ, run [] [.leaf 3 (.spec (parse (p! "a|b|c"))), .select 0 [0], .assign 1 .none] = .ok σ ∧
      shows σ 1 = .ok [(0, 0)] ∧ numChannels σ 1 = some 3 ∧ channels σ 1 = some (parse (p! "a|b|c")) := by
  refine ⟨_, rfl, ?_⟩
  decide +kernel

/-- C80: a concat counts its channels when it is made: made of an image with an unknown number of channels, it never
learns the number, although it has the names. -/
theorem C80_concat_violated :
    ∃ σ, run [] [.leaf 3 .none, .concat [0], .assign 0 (.spec (parse (p! "r|g|b")))] = .ok σ ∧
      numChannels σ 0 = some 3 ∧ numChannels σ 1 = none ∧
      (∃ f, channels σ 1 = some f ∧ f.asList = .ok [p! "r", p! "g", p! "b"]) := by
  refine ⟨_, rfl, by decide +kernel, by decide +kernel, ?_⟩
  exact ⟨⟨[p! "r", p! "g", p! "b"], false⟩, by decide +kernel, by decide +kernel⟩

/-- C80: the channels of a concat cannot be assigned. -/
theorem C80_concat_assign (σ : List Thing) (ps : List Nat) (n : Option Nat) (v : Val) (m : Meta)
    (hv : v.meta = .ok m) : step (.concat ps n :: σ) (.assign σ.length v) = .error .attributeError := by
  simp [step, hv, setMeta]

example : (Val.spec (parse (p! "r|g"))).meta = .ok ⟨some (parse (p! "r|g")), some 2⟩ := by decide +kernel

/-- Two leaves, a warp and a crop of the first, all in one concat, then new names for the first leaf and the warp. -/
def namedProgram : List Act :=
  [.leaf 3 (.spec (parse (p! "a|b|c"))), .leaf 1 (.spec (parse (p! "d"))), .keep 0, .select 2 [2, 0],
    .concat [3, 1, 2], .assign 0 (.spec (parse (p! "r|g|b"))), .assign 2 (.spec (parse (p! "x:3")))]

example : Named namedProgram := by
  intro a ha
  simp only [namedProgram, List.mem_cons, List.not_mem_nil, or_false] at ha
  rcases ha with rfl | rfl | rfl | rfl | rfl | rfl | rfl <;> first | exact ⟨_, rfl⟩ | trivial

example : ∃ σ, run [] namedProgram = .ok σ ∧
    shows σ 4 = .ok [(0, 2), (0, 0), (1, 0), (0, 0), (0, 1), (0, 2)] ∧ numChannels σ 4 = some 6 ∧
    ∃ f, channels σ 4 = some f ∧ f.asList = .ok [p! "c", p! "a", p! "d", p! "x.0", p! "x.1", p! "x.2"] := by
  refine ⟨_, rfl, by decide +kernel, by decide +kernel, ?_⟩
  exact ⟨⟨[p! "c", p! "a", p! "d", p! "x:3"], false⟩, by decide +kernel, by decide +kernel⟩

end Verif.Props
