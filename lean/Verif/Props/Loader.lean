/-
C22 (indexing of lazy files) and C23 (bounded cache).
-/
import Verif.Loader
import Verif.PyLemmas
import Verif.ChannelSpecLemmas
import Mathlib.Data.List.Nodup

namespace Verif.Props

open Verif.Loader

/-! ### C22 -/

/-- A slice bound on an axis of length `D` as numpy reads it: negative bounds count from the end, and
bounds are clamped to the axis. -/
def npBound (D : Nat) (i : Int) : Int :=
  if i < 0 then max 0 (i + D) else min i D

/-- The positions numpy selects with `a:b` on an axis of length `D`. -/
def npSlice (D : Nat) (a b : Option Int) : List Nat :=
  (List.range D).filter (fun (k : Nat) =>
    decide ((match a with | none => 0 | some a => npBound D a) ≤ (k : Int) ∧
      (k : Int) < (match b with | none => (D : Int) | some b => npBound D b)))

theorem filter_range_interval (D lo hi : Nat) (hhi : hi ≤ D) :
    (List.range D).filter (fun k => decide (lo ≤ k ∧ k < hi)) =
      (List.range (hi - lo)).map (fun k => lo + k) := by
  induction D generalizing lo hi with
  | zero => simp; omega
  | succ D ih =>
    rw [List.range_succ, List.filter_append]
    by_cases h : hi ≤ D
    · rw [ih lo hi h]
      simp; omega
    · have : hi = D + 1 := by omega
      subst this
      have e : (List.range D).filter (fun k => decide (lo ≤ k ∧ k < D + 1)) =
          (List.range D).filter (fun k => decide (lo ≤ k ∧ k < D)) := by
        apply List.filter_congr
        intro k hk
        rw [List.mem_range] at hk
        rw [decide_eq_decide]
        omega
      rw [e, ih lo D (Nat.le_refl _)]
      by_cases hl : lo ≤ D
      · rw [show D + 1 - lo = (D - lo) + 1 by omega, List.range_succ]
        have e1 : ([D] : List Nat).filter (fun k => decide (lo ≤ k ∧ k < D + 1)) = [D] := by
          simp; omega
        rw [e1, List.map_append, List.map_cons, List.map_nil, show lo + (D - lo) = D by omega]
      · simp [show D + 1 - lo = 0 by omega, show D - lo = 0 by omega]; omega

theorem filter_range_int (D : Nat) (lo hi : Int) (h0 : 0 ≤ lo) (hhi : hi ≤ D) :
    (List.range D).filter (fun (k : Nat) => decide (lo ≤ (k : Int) ∧ (k : Int) < hi)) =
      (List.range (hi - lo).toNat).map (fun k => lo.toNat + k) := by
  by_cases h : 0 ≤ hi
  · have := filter_range_interval D lo.toNat hi.toNat (by omega)
    rw [show hi.toNat - lo.toNat = (hi - lo).toNat by omega] at this
    rw [← this]
    apply List.filter_congr
    intro k _
    rw [decide_eq_decide]
    omega
  · rw [show (hi - lo).toNat = 0 by omega]
    simp; omega

/-- The window that is read for a slice: the start is taken as `max 0 start`; everything else is as
numpy selects, and an empty selection is never anything but an error or an empty array. -/
theorem C22_slice_rows (skip : Bool) (D : Nat) (a b : Option Int) :
    (npSlice D (a.map (max 0 ·)) b ≠ [] →
      rowsRead skip (.slice a b) D = .ok (npSlice D (a.map (max 0 ·)) b)) ∧
    (npSlice D (a.map (max 0 ·)) b = [] →
      rowsRead skip (.slice a b) D = .error .generic ∨ rowsRead skip (.slice a b) D = .ok []) := by
  have key : ∀ (lo hi : Int) (sel : List Nat), 0 ≤ lo → hi ≤ D →
      sel = (List.range D).filter (fun (k : Nat) => decide (lo ≤ (k : Int) ∧ (k : Int) < hi)) →
      (sel ≠ [] → gdalRead skip D (lo, hi - lo) = .ok sel) ∧
      (sel = [] → gdalRead skip D (lo, hi - lo) = .error .generic ∨
        gdalRead skip D (lo, hi - lo) = .ok []) := by
    intro lo hi sel h0 h1 hs
    rw [filter_range_int D lo hi h0 h1] at hs
    subst hs
    simp only [gdalRead]
    by_cases h : 0 < hi - lo
    · rw [if_neg (by omega), if_pos ⟨h0, h, by omega⟩]
      exact ⟨fun _ => rfl, fun h' => absurd h' (by simp; omega)⟩
    · refine ⟨fun h' => absurd (by simp; omega) h', fun _ => ?_⟩
      by_cases h2 : hi - lo = 0
      · rw [if_pos h2]; cases skip <;> simp
      · rw [if_neg h2, if_neg (by omega)]; exact .inl rfl
  simp only [rowsRead, rectify, windowOf, Except.ok_bind']
  apply key
  · cases a <;> simp <;> omega
  · cases b <;> simp <;> (try split) <;> omega
  · apply List.filter_congr
    intro k hk
    rw [List.mem_range] at hk
    rw [decide_eq_decide]
    cases a <;> cases b <;> simp [npBound] <;> repeat' split
    all_goals omega

/-- C22, slices along a spatial axis: for a start that is absent or not negative, and any stop, exactly
numpy's rows are read whenever there are any.  Missing from the full statement: negative starts and
empty selections. -/
theorem C22_slice_rows_partial (skip : Bool) (D : Nat) (a b : Option Int)
    (ha : ∀ i, a = some i → 0 ≤ i)
    (hne : npSlice D a b ≠ []) : rowsRead skip (.slice a b) D = .ok (npSlice D a b) := by
  have e : a.map (max 0 ·) = a := by
    cases a with
    | none => rfl
    | some i => simp [Int.max_eq_right (ha i rfl)]
  have h := (C22_slice_rows skip D a b).1
  rw [e] at h
  exact h hne

example : rowsRead false (.slice (some 1) (some (-2))) 5 = .ok [1, 2] ∧
    npSlice 5 (some 1) (some (-2)) = [1, 2] := by decide

/-- C22: `None` and the full slice read the whole axis. -/
theorem C22_full_axis (skip : Bool) (D : Nat) (hD : 0 < D) :
    rowsRead skip .none D = .ok (List.range D) ∧ rowsRead skip (.slice none none) D = .ok (List.range D) := by
  have e : npSlice D none none = List.range D := by
    rw [npSlice, List.filter_eq_self]
    intro k hk
    rw [List.mem_range] at hk
    simp; omega
  have h : rowsRead skip (.slice none none) D = .ok (List.range D) := by
    have := C22_slice_rows_partial skip D none none (by simp)
      (by rw [e]; simp; omega)
    rwa [e] at this
  refine ⟨?_, h⟩
  rw [← h]
  simp only [rowsRead, rectify, Except.ok_bind']
  rw [if_neg (by omega)]

/-- C22: an integer reads that row; outside the axis, and for every negative integer, it is an error. -/
theorem C22_int_row (skip : Bool) (D : Nat) (i : Int) :
    rowsRead skip (.int i) D = if 0 ≤ i ∧ i < D then .ok [i.toNat] else .error .generic := by
  simp only [rowsRead, rectify, windowOf, gdalRead, Except.ok_bind']
  by_cases h : 0 ≤ i ∧ i < D
  · rw [if_pos h, if_neg (by omega), if_pos (by omega), show (i + 1 - i).toNat = 1 by omega]; simp
  · rw [if_neg h, if_neg (by omega), if_neg (by omega)]

/-- C22, what fails along a spatial axis.  The last two rows of five: all five are read.  The last row
by a negative integer: an error.  A stop before the start, which numpy reads as no rows: an error,
however GDAL treats empty requests. -/
theorem C22_negative_start_violated (skip : Bool) :
    npSlice 5 (some (-2)) none = [3, 4] ∧
      rowsRead skip (.slice (some (-2)) none) 5 = .ok [0, 1, 2, 3, 4] := by
  cases skip <;> decide

theorem C22_negative_int_violated (skip : Bool) (D : Nat) (i : Int) (hi : i < 0) :
    rowsRead skip (.int i) D = .error .generic := by
  rw [C22_int_row, if_neg (by omega)]

theorem C22_reversed_violated (skip : Bool) (D : Nat) (a b : Nat) (h : b < a) :
    npSlice D (some a) (some b) = [] ∧
      rowsRead skip (.slice (some a) (some b)) D = .error .generic := by
  constructor
  · rw [npSlice, List.filter_eq_nil_iff]
    intro k hk
    rw [List.mem_range] at hk
    have e : ∀ c : Nat, npBound D (c : Int) = min (c : Int) D := fun c => if_neg (by omega)
    rw [decide_eq_true_eq]
    show ¬ (npBound D (a : Int) ≤ (k : Int) ∧ (k : Int) < npBound D (b : Int))
    rw [e, e]
    omega
  · simp only [rowsRead, rectify, windowOf, gdalRead, Except.ok_bind']
    have e1 : ¬ (min (D : Int) b < 0) := by omega
    rw [if_neg e1, if_neg (by omega), if_neg (by omega)]

theorem map_cast_pySlice (C : Nat) (a b : Int) :
    Fused.pySlice (List.range C) (some a) (some b) = npSlice C (some a) (some b) := by
  have h1 : ∀ n, ((List.range C).take n) = List.range (min n C) := by
    intro n; rw [List.take_range]
  have hcl : ∀ i : Int, (Fused.clampIdx C i : Int) = max 0 (if i < 0 then i + C else min i C) := by
    intro i; unfold Fused.clampIdx; split <;> omega
  have ha := hcl a
  have hb := hcl b
  simp only [Fused.pySlice, List.length_range, h1]
  have h2 : ∀ m n : Nat, (List.range n).drop m = (List.range (n - m)).map (fun k => m + k) := by
    intro m n
    apply List.ext_getElem <;> simp
  rw [h2]
  have := filter_range_int C (Fused.clampIdx C a) (min (Fused.clampIdx C b : Nat) C : Nat)
    (by omega) (by omega)
  rw [show ((min (Fused.clampIdx C b : Nat) C : Nat) - (Fused.clampIdx C a : Int) : Int).toNat
    = min (Fused.clampIdx C b) C - Fused.clampIdx C a by omega, Int.toNat_natCast] at this
  rw [← this, npSlice]
  apply List.filter_congr
  intro k hk
  rw [List.mem_range] at hk
  rw [decide_eq_decide]
  simp only [npBound]
  split at ha <;> split at hb <;> simp only [*, if_true, if_false] <;> omega

/-- C22, channel axis: for a start that is absent or not negative and a stop that is not below `-C`,
exactly numpy's bands are read, also when there are none. -/
theorem C22_slice_bands_partial (C : Nat) (a b : Option Int) (ha : ∀ i, a = some i → 0 ≤ i)
    (hb : ∀ i, b = some i → -C ≤ i) :
    bandsRead (.slice a b) C = .ok ((npSlice C a b).map (fun (n : Nat) => (n : Int))) := by
  simp only [bandsRead, rectify, Except.ok_bind', bandsOf, map_cast_pySlice]
  congr 2
  apply List.filter_congr
  intro k hk
  rw [List.mem_range] at hk
  rw [decide_eq_decide]
  cases a with
  | none =>
    cases b with
    | none =>
      simp only [npBound]; repeat' split
      all_goals omega
    | some b =>
      have := hb b rfl
      simp only [npBound]; repeat' split
      all_goals omega
  | some a =>
    have := ha a rfl
    cases b with
    | none => simp only [npBound]; repeat' split
              all_goals omega
    | some b =>
      have := hb b rfl
      simp only [npBound]; repeat' split
      all_goals omega

/-- C22, channel axis, integers: numpy's band for every valid index except `-1`. -/
theorem C22_int_band_partial (C : Nat) (i : Int) (h1 : -C ≤ i) (h2 : i < C) (h3 : i ≠ -1) :
    bandsRead (.int i) C = .ok [if i < 0 then i + C else i] := by
  simp only [bandsRead, rectify, Except.ok_bind', bandsOf, Fused.pySlice, List.length_range]
  congr 1
  by_cases hi : i < 0
  · have e1 : Fused.clampIdx C i = (i + C).toNat := by simp [Fused.clampIdx, hi]
    have e2 : Fused.clampIdx C (i + 1) = (i + C).toNat + 1 := by
      unfold Fused.clampIdx; rw [if_pos (by omega)]; omega
    rw [e1, e2, List.take_range, Nat.min_eq_left (by omega), List.range_succ,
      List.drop_append_of_le_length (by simp), if_pos hi, List.drop_of_length_le (by simp)]
    simp; omega
  · have e1 : Fused.clampIdx C i = i.toNat := by simp [Fused.clampIdx, hi]; omega
    have e2 : Fused.clampIdx C (i + 1) = i.toNat + 1 := by
      unfold Fused.clampIdx; rw [if_neg (by omega)]; omega
    rw [e1, e2, List.take_range, Nat.min_eq_left (by omega), List.range_succ,
      List.drop_append_of_le_length (by simp), if_neg hi, List.drop_of_length_le (by simp)]
    simp; omega

example : bandsRead (.int (-2)) 4 = .ok [2] ∧ bandsRead (.slice (some 1) (some (-1))) 4 = .ok [1, 2] := by
  decide

/-- C22, what fails on the channel axis: the last band by `-1` reads no band, for every number of
channels; and a stop below `-C` is wrapped twice. -/
theorem C22_last_band_violated (C : Nat) : bandsRead (.int (-1)) C = .ok [] := by
  simp [bandsRead, rectify, bandsOf, Fused.pySlice, Fused.clampIdx, Except.ok_bind']

theorem C22_stop_wrapped_twice_violated :
    npSlice 4 none (some (-6)) = [] ∧ bandsRead (.slice none (some (-6))) 4 = .ok [0, 1] := by decide

/-! The index tuple: an ellipsis stands for as many full slices as are missing. -/

/-- C22: with at most two other entries, an ellipsis reads as full slices in its place; without an
ellipsis the missing entries are full slices at the end. -/
theorem C22_ellipsis (skip : Bool) (pre post : List Part) (H W C : Nat) (hpre : .ellipsis ∉ pre)
    (hpost : .ellipsis ∉ post) (hlen : pre.length + post.length ≤ 2) :
    getItem skip (pre ++ .ellipsis :: post) H W C =
      getItem skip (pre ++ List.replicate (3 - pre.length - post.length) (.slice none none) ++ post) H W C ∧
    getItem skip (pre ++ post) H W C =
      getItem skip (pre ++ post ++ List.replicate (3 - pre.length - post.length) (.slice none none)) H W C := by
  have c1 : pre.countP (fun p => decide (p = .ellipsis)) = 0 := by
    rw [List.countP_eq_zero]; intro a ha; simp; rintro rfl; exact hpre ha
  have c2 : post.countP (fun p => decide (p = .ellipsis)) = 0 := by
    rw [List.countP_eq_zero]; intro a ha; simp; rintro rfl; exact hpost ha
  have c3 : ∀ n, (List.replicate n (Part.slice none none)).countP (fun p => decide (p = .ellipsis)) = 0 := by
    intro n; rw [List.countP_eq_zero]; intro a ha; rw [List.mem_replicate] at ha; simp [ha.2]
  have ei : (pre ++ Part.ellipsis :: post).idxOf .ellipsis = pre.length := by
    rw [List.idxOf_append_of_notMem hpre]; simp
  have E1 : expandIndex (pre ++ .ellipsis :: post) =
      .ok (pre ++ List.replicate (3 - pre.length - post.length) (.slice none none) ++ post) := by
    simp only [expandIndex, List.countP_append, List.countP_cons, c1, c2, ei]
    rw [if_neg (by simp), if_pos (by simp), if_pos (by simp; omega)]
    rw [List.take_left, show pre ++ Part.ellipsis :: post = (pre ++ [.ellipsis]) ++ post by simp,
      List.drop_left' (by simp)]
    congr 4
    simp; omega
  have E2 : ∀ l, l.countP (fun p => decide (p = Part.ellipsis)) = 0 → l.length = 3 → expandIndex l = .ok l := by
    intro l h h'; simp only [expandIndex, h]; rw [if_neg (by omega), if_neg (by omega), if_neg (by omega)]
  have E3 : expandIndex (pre ++ post) =
      .ok (pre ++ post ++ List.replicate (3 - pre.length - post.length) (.slice none none)) := by
    simp only [expandIndex, List.countP_append, c1, c2]
    rw [if_neg (by omega), if_neg (by omega), if_pos (by simp; omega), List.length_append, Nat.sub_add_eq]
  constructor
  · simp only [getItem, E1]
    rw [E2 _ (by simp only [List.countP_append, c1, c2, c3]) (by simp; omega)]
  · simp only [getItem, E3]
    rw [E2 _ (by simp only [List.countP_append, c1, c2, c3]) (by simp; omega)]

example : getItem true [.ellipsis, .int 1] 2 3 4 = .ok ([0, 1], [0, 1, 2], [1]) := by decide

/-- C22: rows, columns and bands are read independently, each as its own entry says. -/
theorem C22_axes_independent (skip : Bool) (y x c : Part) (H W C : Nat) (rows cols : List Nat) (bands : List Int)
    (hy : y ≠ .ellipsis) (hx : x ≠ .ellipsis) (hc : c ≠ .ellipsis) :
    getItem skip [y, x, c] H W C = .ok (rows, cols, bands) ↔
      rowsRead skip y H = .ok rows ∧ rowsRead skip x W = .ok cols ∧ bandsRead c C = .ok bands := by
  have E : expandIndex [y, x, c] = .ok [y, x, c] := by
    simp [expandIndex, List.countP_cons, hy, hx, hc]
  simp only [getItem, E, Except.ok_bind', rowsRead, bandsRead, List.getD_cons_zero, List.getD_cons_succ]
  cases rectify y H with
  | error e => simp [Except.error_bind']
  | ok y =>
    cases rectify x W with
    | error e => simp [Except.error_bind', Except.ok_bind']
    | ok x =>
      cases rectify c C with
      | error e => simp [Except.error_bind', Except.ok_bind']
      | ok c =>
        simp only [Except.ok_bind']
        cases windowOf y with
        | error e => simp [Except.error_bind']
        | ok wy =>
          cases windowOf x with
          | error e => simp [Except.error_bind', Except.ok_bind']
          | ok wx =>
            simp only [Except.ok_bind']
            cases gdalRead skip H wy <;> cases gdalRead skip W wx <;> simp [Except.error_bind', Except.ok_bind']

/-- C22, what fails: numpy accepts an ellipsis that stands for no axis; here it is a type error unless
it comes last. -/
theorem C22_empty_ellipsis_violated :
    getItem true [.slice none none, .ellipsis, .slice none none, .int 0] 2 2 2 = .error .typeError ∧
    getItem true [.slice none none, .slice none none, .int 0, .ellipsis] 2 2 2 = .ok ([0, 1], [0, 1], [0]) := by
  decide

/-! ### C23 -/

section lru
variable {κ α : Type} [DecidableEq κ]

/-- Use of a key: it becomes the most recent one. -/
def touch (k : κ) (h : List κ) : List κ := k :: h.filter (fun j => decide (j ≠ k))

/-- All keys ever written, most recently used first, without any bound.  A write uses its key; a read
uses its key if the key is among the `cap` most recently used ones (otherwise the read fails). -/
def recency (cap : Nat) : List (Op κ α) → List κ
  | [] => []
  | .set k _ :: older => touch k (recency cap older)
  | .get k :: older =>
    if k ∈ (recency cap older).take cap then touch k (recency cap older) else recency cap older

/-- The last value written for a key; operations newest first. -/
def lastWritten (k : κ) : List (Op κ α) → Option α
  | [] => none
  | .set j v :: older => if j = k then some v else lastWritten k older
  | .get _ :: older => lastWritten k older

theorem nodup_touch {k : κ} {h : List κ} (hn : h.Nodup) : (touch k h).Nodup := by
  simp only [touch, List.nodup_cons, List.mem_filter]
  exact ⟨by simp, hn.filter _⟩

theorem nodup_recency (cap : Nat) : ∀ ops : List (Op κ α), (recency cap ops).Nodup
  | [] => List.nodup_nil
  | .set _ _ :: older => nodup_touch (nodup_recency cap older)
  | .get k :: older => by
    simp only [recency]
    split
    · exact nodup_touch (nodup_recency cap older)
    · exact nodup_recency cap older

/-- Of the first `c + 1` keys at most one is removed. -/
theorem take_filter_take (k : κ) : ∀ (c : Nat) (h : List κ), h.Nodup →
    ((h.take (c + 1)).filter (fun j => decide (j ≠ k))).take c =
      (h.filter (fun j => decide (j ≠ k))).take c
  | _, [], _ => by simp
  | c, x :: h, hn => by
    rw [List.nodup_cons] at hn
    by_cases hx : x = k
    · subst hx
      have e : ∀ l : List κ, x ∉ l → l.filter (fun j => decide (j ≠ x)) = l := by
        intro l hl
        rw [List.filter_eq_self]
        intro a ha
        simp; rintro rfl; exact hl ha
      rw [List.take_succ_cons]
      simp only [List.filter_cons, ne_eq, not_true_eq_false, decide_false, Bool.false_eq_true, if_false]
      rw [e _ hn.1, e _ (fun h' => hn.1 (List.mem_of_mem_take h')), List.take_take, Nat.min_self]
    · rw [List.take_succ_cons]
      simp only [List.filter_cons, ne_eq, hx, not_false_eq_true, decide_true, if_true]
      cases c with
      | zero => simp
      | succ c => simp only [List.take_succ_cons]; rw [take_filter_take k c h hn.2]

theorem take_touch (k : κ) (cap : Nat) (h : List κ) (hn : h.Nodup) :
    (touch k (h.take cap)).take cap = (touch k h).take cap := by
  cases cap with
  | zero => simp
  | succ c => simp only [touch, List.take_succ_cons]; rw [take_filter_take k c h hn]

theorem filter_odSet (d : List (κ × α)) (k : κ) (v : α) :
    (odSet d k v).filter (fun p => decide (p.1 ≠ k)) = d.filter (fun p => decide (p.1 ≠ k)) := by
  induction d with
  | nil => simp [odSet]
  | cons p rest ih =>
    obtain ⟨k', v'⟩ := p
    simp only [odSet]
    split
    · next h => subst h; simp
    · next h => simp only [List.filter_cons, ih]

theorem filter_odSet_eq (d : List (κ × α)) (k : κ) (v : α) (hn : (d.map (·.1)).Nodup) :
    (odSet d k v).filter (fun p => decide (p.1 = k)) = [(k, v)] := by
  induction d with
  | nil => simp [odSet]
  | cons p rest ih =>
    obtain ⟨k', v'⟩ := p
    simp only [List.map_cons, List.nodup_cons] at hn
    simp only [odSet]
    split
    · next h =>
      subst h
      simp only [List.filter_cons, decide_true, if_true, List.cons.injEq, true_and]
      rw [List.filter_eq_nil_iff]
      rintro ⟨a, b⟩ hab
      simp
      rintro rfl
      exact hn.1 (List.mem_map.2 ⟨_, hab, rfl⟩)
    · next h => simp only [List.filter_cons, h, decide_false, Bool.false_eq_true, if_false, ih hn.2]

theorem filter_odGet_eq (d : List (κ × α)) (k : κ) (v : α) (hn : (d.map (·.1)).Nodup)
    (h : odGet d k = some v) : d.filter (fun p => decide (p.1 = k)) = [(k, v)] := by
  induction d with
  | nil => simp [odGet] at h
  | cons p rest ih =>
    obtain ⟨k', v'⟩ := p
    simp only [List.map_cons, List.nodup_cons] at hn
    simp only [odGet] at h
    split at h
    · next hk =>
      subst hk
      cases h
      simp only [List.filter_cons, decide_true, if_true, List.cons.injEq, true_and]
      rw [List.filter_eq_nil_iff]
      rintro ⟨a, b⟩ hab
      simp
      rintro rfl
      exact hn.1 (List.mem_map.2 ⟨_, hab, rfl⟩)
    · next hk => simp only [List.filter_cons, hk, decide_false, Bool.false_eq_true, if_false, ih hn.2 h]

theorem evict_eq (cap : Nat) (d : List (κ × α)) : evict cap d = d.drop (d.length - cap) := by
  induction d with
  | nil => simp [evict]
  | cons p rest ih =>
    simp only [evict]
    split
    · next h => rw [ih, List.length_cons, show rest.length + 1 - cap = (rest.length - cap) + 1 by omega,
        List.drop_succ_cons]
    · next h => rw [List.length_cons, show rest.length + 1 - cap = 0 by omega, List.drop_zero]

theorem odGet_eq_none (d : List (κ × α)) (k : κ) : odGet d k = none ↔ k ∉ d.map (·.1) := by
  induction d with
  | nil => simp [odGet]
  | cons p rest ih =>
    obtain ⟨k', v'⟩ := p
    simp only [odGet]
    split
    · next h => simp [h]
    · next h => rw [ih]; simp [Ne.symm h]

theorem odGet_mem (d : List (κ × α)) (k : κ) (v : α) (h : odGet d k = some v) : (k, v) ∈ d := by
  induction d with
  | nil => simp [odGet] at h
  | cons p rest ih =>
    obtain ⟨k', v'⟩ := p
    simp only [odGet] at h
    split at h
    · next hk => cases h; simp [hk]
    · exact List.mem_cons_of_mem _ (ih h)

/-- The keys of a state, newest first. -/
def keysNewest (d : List (κ × α)) : List κ := (d.map (·.1)).reverse

theorem keysNewest_append (d : List (κ × α)) (k : κ) (v : α) :
    keysNewest (d.filter (fun p => decide (p.1 ≠ k)) ++ [(k, v)]) = touch k (keysNewest d) := by
  simp only [keysNewest, touch, List.map_append, List.map_cons, List.map_nil, List.reverse_append,
    List.reverse_cons, List.reverse_nil, List.nil_append, List.cons_append, List.filter_reverse]
  congr 2
  rw [List.filter_map]
  rfl

/-- The invariant, operations newest first. -/
theorem lru_inv (cap : Nat) (ops : List (Op κ α)) :
    keysNewest (run cap ops.reverse) = (recency cap ops).take cap ∧
      ∀ k v, (k, v) ∈ run cap ops.reverse → lastWritten k ops = some v := by
  induction ops with
  | nil => simp [run, keysNewest, recency]
  | cons op older ih =>
    obtain ⟨ih1, ih2⟩ := ih
    have hrec := nodup_recency (α := α) cap older
    have hn : ((run cap older.reverse).map (·.1)).Nodup := by
      rw [← List.nodup_reverse]
      show (keysNewest _).Nodup
      rw [ih1]
      exact hrec.sublist (List.take_sublist _ _)
    have hrun : run cap (op :: older).reverse = step cap (run cap older.reverse) op := by
      simp [run]
    rw [hrun]
    generalize run cap older.reverse = d at *
    cases op with
    | set k v =>
      have e : moveToEnd (odSet d k v) k = d.filter (fun p => decide (p.1 ≠ k)) ++ [(k, v)] := by
        rw [moveToEnd, filter_odSet, filter_odSet_eq d k v hn]
      simp only [step, cacheSet, e, evict_eq, recency, lastWritten]
      constructor
      · have : ∀ l : List (κ × α), keysNewest (l.drop (l.length - cap)) = (keysNewest l).take cap := by
          intro l
          simp only [keysNewest]
          rw [List.map_drop, List.reverse_drop]
          simp
          omega
        rw [this, keysNewest_append, ih1, take_touch k cap _ hrec]
      · intro k' v' hm
        have hm := List.mem_of_mem_drop hm
        rw [List.mem_append, List.mem_filter] at hm
        rcases hm with ⟨hm, hk⟩ | hm
        · have : k ≠ k' := by intro h; simp [h] at hk
          rw [if_neg this]
          exact ih2 _ _ hm
        · simp at hm
          rw [if_pos hm.1.symm, hm.2]
    | get k =>
      simp only [step, cacheGet, recency, lastWritten]
      have hkeys : k ∈ (recency cap older).take cap ↔ k ∈ d.map (·.1) := by
        rw [← ih1]; simp [keysNewest]
      cases hg : odGet d k with
      | none =>
        have := (odGet_eq_none d k).1 hg
        rw [if_neg (fun h => this (hkeys.1 h))]
        exact ⟨ih1, ih2⟩
      | some v =>
        have hk : k ∈ (recency cap older).take cap := by
          rw [hkeys]
          exact List.mem_map.2 ⟨_, odGet_mem d k v hg, rfl⟩
        rw [if_pos hk]
        have e : moveToEnd d k = d.filter (fun p => decide (p.1 ≠ k)) ++ [(k, v)] := by
          rw [moveToEnd, filter_odGet_eq d k v hn hg]
        constructor
        · show keysNewest (moveToEnd d k) = _
          rw [e, keysNewest_append, ih1, ← take_touch k cap _ hrec]
          refine (List.take_of_length_le ?_).symm
          have hnt : ((recency cap older).take cap).Nodup := hrec.sublist (List.take_sublist _ _)
          have hlt : (((recency cap older).take cap).filter (fun j => decide (j ≠ k))).length <
              ((recency cap older).take cap).length := by
            apply List.length_filter_lt_length_iff_exists.2
            exact ⟨k, hk, by simp⟩
          simp only [touch, List.length_cons]
          have := List.length_take_le cap (recency cap older)
          omega
        · intro k' v' hm
          have hm : (k', v') ∈ moveToEnd d k := hm
          rw [moveToEnd, List.mem_append, List.mem_filter, List.mem_filter] at hm
          rcases hm with ⟨hm, _⟩ | ⟨hm, _⟩ <;> exact ih2 _ _ hm

/-- C23: after any history the cache holds, newest first, exactly the `cap` most recently used keys;
every key it holds has the last value written for it. -/
theorem C23_lru (cap : Nat) (ops : List (Op κ α)) :
    (run cap ops).reverse.map (fun p => (p.1, some p.2)) =
      ((recency cap ops.reverse).take cap).map (fun k => (k, lastWritten k ops.reverse)) := by
  obtain ⟨h1, h2⟩ := lru_inv cap ops.reverse
  rw [List.reverse_reverse] at h1 h2
  rw [← h1, keysNewest, ← List.map_reverse, List.map_map]
  apply List.map_congr_left
  rintro ⟨k, v⟩ hm
  rw [List.mem_reverse] at hm
  simp [h2 k v hm]

/-- C23: never more than `cap` keys. -/
theorem C23_bounded (cap : Nat) (ops : List (Op κ α)) : (run cap ops).length ≤ cap := by
  have := congrArg List.length (C23_lru cap ops)
  simp at this
  omega

/-- C23: a read returns the last value written exactly if the key is among the `cap` most recently
used; otherwise it is a `KeyError`. -/
theorem C23_read (cap : Nat) (ops : List (Op κ α)) (k : κ) :
    (k ∈ (recency cap ops.reverse).take cap →
      ∃ v, lastWritten k ops.reverse = some v ∧ (cacheGet (run cap ops) k).2 = .ok v) ∧
    (k ∉ (recency cap ops.reverse).take cap → (cacheGet (run cap ops) k).2 = .error .keyError) := by
  obtain ⟨h1, h2⟩ := lru_inv cap ops.reverse
  rw [List.reverse_reverse] at h1 h2
  rw [← h1]
  simp only [keysNewest, List.mem_reverse, cacheGet]
  cases hg : odGet (run cap ops) k with
  | none =>
    have := (odGet_eq_none _ _).1 hg
    exact ⟨fun h => absurd h this, fun _ => rfl⟩
  | some v =>
    have hm := odGet_mem _ _ _ hg
    exact ⟨fun _ => ⟨v, h2 _ _ hm, rfl⟩, fun h => absurd (List.mem_map.2 ⟨_, hm, rfl⟩) h⟩

/-- C23: the most recent write is always readable. -/
theorem C23_read_own_write (cap : Nat) (hc : 0 < cap) (ops : List (Op κ α)) (k : κ) (v : α) :
    (cacheGet (run cap (ops ++ [.set k v])) k).2 = .ok v := by
  obtain ⟨v', h, h'⟩ := (C23_read cap (ops ++ [.set k v]) k).1 (by
    cases cap with
    | zero => omega
    | succ c => simp [recency, touch])
  simp [lastWritten] at h
  rw [h', h]

end lru

example : run 2 [Op.set 1 'a', .set 2 'b', .get 1, .set 3 'c', .get 2] = [(1, 'a'), (3, 'c')] := by
  decide

end Verif.Props
