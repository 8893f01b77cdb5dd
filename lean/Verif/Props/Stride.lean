/-
C06: fused channel specs indexed by slices with a step.
-/
import Mathlib.Data.List.GetD
import Verif.Stride
import Verif.Props.Fused

namespace Verif.Props

open Verif.Fused

/-! ### specification -/

/-- A bound of a slice with step `k` along an axis of length `n`: numbers below zero count from the end, and what
is beyond the ends is moved to them.  A slice that runs backwards may stop before the first position. -/
def StepBound (n : Nat) (k missing : Int) (a : Option Int) : Int :=
  match a with
  | none => missing
  | some i => max (if k < 0 then -1 else 0) (min (if k < 0 then n - 1 else n) (if i < 0 then i + n else i))

/-- The positions of the slice `a:b:k` along an axis of length `n`: the multiples of `k` away from the first bound
and before the second one, upwards or downwards. -/
def Strides (n : Nat) (a b : Option Int) (k : Int) (ps : List Nat) : Prop :=
  k ≠ 0 ∧ ps.Pairwise (fun p q => if 0 < k then p < q else q < p) ∧
  ∀ p : Nat, p ∈ ps ↔ p < n ∧ k ∣ p - StepBound n k (if k < 0 then n - 1 else 0) a ∧
    (0 < k → StepBound n k 0 a ≤ p ∧ p < StepBound n k n b) ∧
    (k < 0 → p ≤ StepBound n k (n - 1) a ∧ StepBound n k (-1) b < p)

/-! ### lemmas -/

theorem strideBound_eq (n : Nat) (k missing : Int) (a : Option Int) :
    strideBound n k missing a = StepBound n k missing a := by
  cases a with
  | none => rfl
  | some i =>
    simp only [strideBound, StepBound]
    by_cases hk : k < 0
    · simp only [if_pos hk]; split <;> split <;> omega
    · simp only [if_neg hk]; split <;> split <;> omega

theorem stepBound_range (n : Nat) (k missing : Int) (a : Option Int)
    (h : (if k < 0 then -1 else 0) ≤ missing ∧ missing ≤ if k < 0 then (n : Int) - 1 else n) :
    (if k < 0 then -1 else 0) ≤ StepBound n k missing a ∧
    StepBound n k missing a ≤ if k < 0 then (n : Int) - 1 else n := by
  cases a with
  | none => exact h
  | some i =>
    simp only [StepBound]
    by_cases hk : k < 0
    · simp only [if_pos hk]; omega
    · simp only [if_neg hk]; omega

theorem strides_unique {n : Nat} {a b : Option Int} {k : Int} {ps qs : List Nat} (h : Strides n a b k ps)
    (h' : Strides n a b k qs) : ps = qs := by
  obtain ⟨hk, h1, h2⟩ := h
  obtain ⟨-, h3, h4⟩ := h'
  have nd : ∀ l : List Nat, l.Pairwise (fun p q => if 0 < k then p < q else q < p) → l.Nodup := by
    intro l hl
    refine hl.imp ?_
    intro p q hpq
    split at hpq <;> omega
  refine List.Perm.eq_of_pairwise ?_ h1 h3 ((List.perm_ext_iff_of_nodup (nd _ h1) (nd _ h3)).2 fun p => ?_)
  · intro p q _ _ hp hq
    split at hp <;> split at hq <;> omega
  · rw [h2, h4]

theorem lt_strideLen {s e k : Int} (hk : k ≠ 0) (j : Nat) :
    j < strideLen s e k ↔ (0 < k → s + j * k < e) ∧ (k < 0 → e < s + j * k) := by
  unfold strideLen
  rcases lt_or_gt_of_ne hk with hk | hk
  · rw [if_pos hk]
    have e1 : (j : Int) * k = -(j * (-k)) := by rw [mul_neg, neg_neg]
    rw [e1]
    by_cases h : e < s
    · rw [if_pos h, Int.lt_toNat, Int.lt_add_one_iff, Int.le_ediv_iff_mul_le (by omega)]
      constructor
      · intro h1; exact ⟨fun h2 => by omega, fun _ => by omega⟩
      · rintro ⟨-, h2⟩; have := h2 hk; omega
    · rw [if_neg h]
      constructor
      · intro h1; omega
      · rintro ⟨-, h2⟩
        have := h2 hk
        have : 0 ≤ (j : Int) * (-k) := mul_nonneg (by omega) (by omega)
        omega
  · rw [if_neg (by omega)]
    by_cases h : s < e
    · rw [if_pos h, Int.lt_toNat, Int.lt_add_one_iff, Int.le_ediv_iff_mul_le hk]
      constructor
      · intro h1; exact ⟨fun _ => by omega, fun h2 => by omega⟩
      · rintro ⟨h2, -⟩; have := h2 hk; omega
    · rw [if_neg h]
      constructor
      · intro h1; omega
      · rintro ⟨h2, -⟩
        have := h2 hk
        have : 0 ≤ (j : Int) * k := mul_nonneg (by omega) (by omega)
        omega

/-- The model takes the positions of the specification. -/
theorem stride_strides {n : Nat} {a b : Option Int} {k : Int} {ps : List Nat} (h : stride n a b k = .ok ps) :
    Strides n a b k ps := by
  unfold stride at h
  by_cases hk : k = 0
  · rw [if_pos hk] at h; cases h
  rw [if_neg hk] at h
  simp only [strideBound_eq, Except.ok.injEq] at h
  have hs := stepBound_range n k (if k < 0 then n - 1 else 0) a (by split <;> omega)
  have he := stepBound_range n k (if k < 0 then -1 else n) b (by split <;> omega)
  generalize hS : StepBound n k (if k < 0 then n - 1 else 0) a = s at h hs
  generalize hE : StepBound n k (if k < 0 then -1 else n) b = e at h he
  have low : ∀ j : Nat, j < strideLen s e k → 0 ≤ s + j * k ∧ s + j * k < n := by
    intro j hj
    rw [lt_strideLen hk] at hj
    rcases lt_or_gt_of_ne hk with h0 | h0
    · have h1 := hj.2 h0
      simp only [if_pos h0] at hs he
      have : (j : Int) * k ≤ 0 := mul_nonpos_of_nonneg_of_nonpos (by omega) (by omega)
      omega
    · have h1 := hj.1 h0
      simp only [if_neg (show ¬ k < 0 by omega)] at hs he
      have : 0 ≤ (j : Int) * k := mul_nonneg (by omega) (by omega)
      omega
  subst h
  refine ⟨hk, ?_, ?_⟩
  · rw [List.pairwise_map]
    refine (List.pairwise_lt_range (n := strideLen s e k)).imp_of_mem ?_
    intro i j hi hj hij
    have l1 := low i (List.mem_range.1 hi)
    have l2 := low j (List.mem_range.1 hj)
    rcases lt_or_gt_of_ne hk with h0 | h0
    · have : (j : Int) * k < i * k := mul_lt_mul_of_neg_right (by omega) h0
      rw [if_neg (by omega)]; omega
    · have : (i : Int) * k < j * k := mul_lt_mul_of_pos_right (by omega) h0
      rw [if_pos h0]; omega
  · intro p
    rw [List.mem_map]
    constructor
    · rintro ⟨j, hj, rfl⟩
      have l1 := low j (List.mem_range.1 hj)
      have hj' := (lt_strideLen hk j).1 (List.mem_range.1 hj)
      have e1 : (((s + j * k).toNat : Nat) : Int) = s + j * k := Int.toNat_of_nonneg l1.1
      refine ⟨by omega, ?_, ?_, ?_⟩
      · rw [hS, e1]; exact ⟨j, by ring⟩
      · intro h0
        rw [e1]
        simp only [if_neg (show ¬ k < 0 by omega)] at hS hE
        rw [hS, hE]
        have : 0 ≤ (j : Int) * k := mul_nonneg (by omega) (by omega)
        exact ⟨by omega, hj'.1 h0⟩
      · intro h0
        rw [e1]
        simp only [if_pos h0] at hS hE
        rw [hS, hE]
        have : (j : Int) * k ≤ 0 := mul_nonpos_of_nonneg_of_nonpos (by omega) (by omega)
        exact ⟨by omega, hj'.2 h0⟩
    · rintro ⟨hp, hd, h1, h2⟩
      rw [hS] at hd
      obtain ⟨c, hc⟩ := hd
      have hc0 : 0 ≤ c := by
        rcases lt_or_gt_of_ne hk with h0 | h0
        · have h3 := h2 h0
          simp only [if_pos h0] at hS
          rw [hS] at h3
          by_contra hneg
          have : 0 < k * c := mul_pos_of_neg_of_neg h0 (by omega)
          omega
        · have h3 := h1 h0
          simp only [if_neg (show ¬ k < 0 by omega)] at hS
          rw [hS] at h3
          by_contra hneg
          have : k * c < 0 := mul_neg_of_pos_of_neg h0 (by omega)
          omega
      have e2 : s + (c.toNat : Int) * k = p := by rw [Int.toNat_of_nonneg hc0, mul_comm]; omega
      refine ⟨c.toNat, ?_, by rw [e2]; rfl⟩
      rw [List.mem_range, lt_strideLen hk, e2]
      constructor
      · intro h0
        have h3 := h1 h0
        simp only [if_neg (show ¬ k < 0 by omega)] at hE
        rw [hE] at h3
        exact h3.2
      · intro h0
        have h3 := h2 h0
        simp only [if_pos h0] at hE
        rw [hE] at h3
        exact h3.2

theorem stride_ok {n : Nat} {a b : Option Int} {k : Int} {ps : List Nat} :
    stride n a b k = .ok ps ↔ Strides n a b k ps := by
  refine ⟨stride_strides, fun h => ?_⟩
  have hk := h.1
  obtain ⟨qs, hq⟩ : ∃ qs, stride n a b k = .ok qs := by
    unfold stride
    rw [if_neg hk]
    exact ⟨_, rfl⟩
  rw [hq, strides_unique (stride_strides hq) h]

theorem stride_error {n : Nat} {a b : Option Int} {k : Int} {e : PyErr} (h : stride n a b k = .error e) :
    k = 0 ∧ e = .valueError := by
  unfold stride at h
  by_cases hk : k = 0
  · rw [if_pos hk] at h; cases h; exact ⟨hk, rfl⟩
  · rw [if_neg hk] at h; cases h

theorem filterMap_getD {α} (d : α) (l : List α) (ps : List Nat) (h : ∀ p ∈ ps, p < l.length) :
    ps.filterMap (fun p => l[p]?) = ps.map (fun p => l.getD p d) := by
  induction ps with
  | nil => rfl
  | cons p ps ih =>
    have hp := h p (by simp)
    rw [List.filterMap_cons, List.getElem?_eq_getElem hp, List.map_cons, ih fun q hq => h q (by simp [hq])]
    simp only
    rw [List.getD_eq_getElem _ _ hp]

theorem strides_lt {n : Nat} {a b : Option Int} {k : Int} {ps : List Nat} (h : Strides n a b k ps) :
    ∀ p ∈ ps, p < n := fun p hp => ((h.2.2 p).1 hp).1

theorem pyStride_eq (l : List Str) (a b : Option Int) (k : Int) : pyStride l a b k =
    (match stride l.length a b k with
      | .ok ps => .ok (ps.map (fun p => l.getD p []))
      | .error e => .error e) := by
  unfold pyStride
  cases h : stride l.length a b k with
  | error e => rfl
  | ok ps =>
    simp only
    rw [filterMap_getD [] l ps (strides_lt (stride_strides h))]

/-! ### C06 -/

/-- C06: `spec[a:b:k]` has the normalized channels at the positions of the slice, in the order of the slice, and as
many channels as the slice has positions. -/
theorem C06_getitem_step {f : Fused} (h : Built f) {l : List Str} (hl : f.asList = .ok l) {a b : Option Int}
    {k : Int} {ps : List Nat} (hp : Strides l.length a b k ps) :
    ∃ g, f.getStride a b k = .ok g ∧ g.asList = .ok g.parsed ∧ g.numel = .ok ps.length ∧
      g.parsed.map some = ps.map (fun p => l[p]?) := by
  have hf := h.flagSound
  have hneeds := asList_needs hf hl
  rw [asList_eq hf] at hl
  have hnorm : f.normalize = .ok ⟨l, true⟩ := by rw [normalize_eq hf, hl]; rfl
  have hlt := strides_lt hp
  have e : pyStride l a b k = .ok (ps.map (fun p => l.getD p [])) := by rw [pyStride_eq, stride_ok.2 hp]
  have hm : ∀ v ∈ ps.map (fun p => l.getD p []), v ∈ l := by
    intro v hv
    obtain ⟨p, hp', rfl⟩ := List.mem_map.1 hv
    rw [List.getD_eq_getElem _ _ (hlt p hp')]
    exact List.getElem_mem _
  have hn : normParts (ps.map (fun p => l.getD p [])) = .ok (ps.map (fun p => l.getD p [])) :=
    normParts_of_not_needs fun v hv => hneeds v (hm v hv)
  refine ⟨⟨ps.map (fun p => l.getD p []), false⟩, by simp only [getStride, hnorm, e], ?_, ?_, ?_⟩
  · rw [asList_false]; exact hn
  · have hB : Built ⟨ps.map (fun p => l.getD p []), false⟩ := .ofList _
    rw [(C01_numel_counts_channels hB).1, asList_false, hn]; simp
  · rw [List.map_map]
    apply List.map_congr_left
    intro p hp'
    simp only [Function.comp]
    rw [List.getD_eq_getElem _ _ (hlt p hp'), List.getElem?_eq_getElem (hlt p hp')]

/-- C06: a step of zero raises ValueError; with any other step there are positions to take. -/
theorem C06_step_zero {f : Fused} (h : Built f) {l : List Str} (hl : f.asList = .ok l) (a b : Option Int) :
    f.getStride a b 0 = .error .valueError ∧ ∀ k ≠ 0, ∃ ps, Strides l.length a b k ps := by
  have hf := h.flagSound
  rw [asList_eq hf] at hl
  have hnorm : f.normalize = .ok ⟨l, true⟩ := by rw [normalize_eq hf, hl]; rfl
  refine ⟨by simp [getStride, hnorm, pyStride, stride], fun k hk => ?_⟩
  cases e : stride l.length a b k with
  | ok ps => exact ⟨ps, stride_strides e⟩
  | error er => exact absurd (stride_error e).1 hk

/-- C06: `spec[::-1]` has the channels in reverse order. -/
theorem C06_reverse {f : Fused} (h : Built f) {l : List Str} (hl : f.asList = .ok l) :
    f.getStride none none (-1) = .ok ⟨l.reverse, false⟩ := by
  have hs : Strides l.length none none (-1) (List.range l.length).reverse := by
    refine ⟨by decide, ?_, ?_⟩
    · rw [List.pairwise_reverse]
      refine List.pairwise_lt_range.imp ?_
      intro p q hpq
      simpa using hpq
    · intro p
      rw [List.mem_reverse, List.mem_range]
      simp only [StepBound]
      constructor
      · intro hp
        refine ⟨hp, ⟨-(p - (l.length - 1)), by simp⟩, by simp, fun _ => by omega⟩
      · exact fun hp => hp.1
  obtain ⟨g, hg, -, -, hg'⟩ := C06_getitem_step h hl hs
  have hf := h.flagSound
  have hl' := hl
  rw [asList_eq hf] at hl'
  have hnorm : f.normalize = .ok ⟨l, true⟩ := by rw [normalize_eq hf, hl']; rfl
  have hgf : g.isNorm = false := by
    simp only [getStride, hnorm] at hg
    split at hg
    · cases hg
    · cases hg; rfl
  have hgp : g.parsed = l.reverse := by
    apply List.map_injective_iff.2 (Option.some_injective Str)
    rw [hg', List.map_reverse, List.map_reverse]
    congr 1
    apply List.ext_getElem
    · simp
    · intro i h1 h2
      simp only [List.length_map, List.length_range] at h1
      simp [h1]
  rw [hg]
  obtain ⟨p, n⟩ := g
  simp only at hgp hgf
  rw [hgp, hgf]

/-- Non-vacuity: every other channel of `rgb|x:3` backwards. -/
example : (parse (p! "rgb|x:3")).getStride (some (-2)) none (-2) = .ok ⟨[p! "x.1", p! "b", p! "r"], false⟩ ∧
    Strides 6 (some (-2)) none (-2) [4, 2, 0] ∧ (parse (p! "rgb|x:3")).numel = .ok 6 :=
  ⟨by decide, stride_strides (by decide), by decide⟩

end Verif.Props
