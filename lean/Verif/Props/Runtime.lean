/-
C67: nearest neighbour warps do not depend on the installed libraries.
-/
import Verif.Runtime
import Verif.PyLemmas
import Verif.Props.Opt

namespace Verif.Props

open Tree Node Helpers

variable {V : Type}

theorem findNumbers_natStr (n : Nat) (acc : Nat) (rest : Str) :
    ∃ k, findNumbers (some acc) (natStr n ++ rest) = findNumbers (some (acc * k + n)) rest := by
  induction n using Nat.strongRecOn generalizing acc rest with
  | _ n ih =>
    by_cases hn : n < 10
    · refine ⟨10, ?_⟩
      rw [natStr_lt hn]
      simp only [List.cons_append, List.nil_append]
      conv => lhs; unfold findNumbers
      simp [digitVal_digitChar hn]
    · rw [natStr_ge (by omega), List.append_assoc]
      obtain ⟨k, hk⟩ := ih (n / 10) (by omega) acc ([digitChar (n % 10)] ++ rest)
      refine ⟨k * 10, ?_⟩
      rw [hk]
      simp only [List.cons_append, List.nil_append]
      conv => lhs; unfold findNumbers
      simp only [digitVal_digitChar (show n % 10 < 10 by omega)]
      congr 2
      rw [Nat.add_mul, Nat.mul_assoc]
      omega

theorem findNumbers_none (n : Nat) (rest : Str) :
    findNumbers none (natStr n ++ rest) = findNumbers (some n) rest := by
  obtain ⟨k, hk⟩ := findNumbers_natStr n 0 rest
  rw [Nat.zero_mul, Nat.zero_add] at hk
  rw [← hk]
  cases hs : natStr n with
  | nil => exact absurd hs (natStr_ne_nil n)
  | cons c cs =>
    obtain ⟨x, hx, rfl⟩ := natStr_digit (n := n) (c := c) (by simp [hs])
    simp [findNumbers, digitVal_digitChar hx]

/-- Text that does not go on with a digit. -/
def Stops (rest : Str) : Prop := ∀ c cs, rest = c :: cs → digitVal? c = none

theorem findNumbers_stop {n : Nat} {rest : Str} (h : Stops rest) :
    findNumbers (some n) rest = n :: findNumbers none rest := by
  cases rest with
  | nil => rfl
  | cons c cs => simp [findNumbers, h c cs rfl]

/-- The version `a.b` followed by anything that is no digit, such as `.0`, `.0.dev1`, `-rc2` or nothing. -/
def version (a b : Nat) (rest : Str) : Str := natStr a ++ '.' :: (natStr b ++ rest)

theorem versionTuple_version (a b : Nat) {rest : Str} (h : Stops rest) :
    versionTuple (version a b rest) = a :: b :: findNumbers none rest := by
  unfold versionTuple version
  rw [findNumbers_none, findNumbers_stop (by intro c cs e; cases e; rfl)]
  show a :: findNumbers none (natStr b ++ rest) = _
  rw [findNumbers_none, findNumbers_stop h]

/-- The text that follows has a number. -/
theorem findNumbers_patch (c : Nat) {rest : Str} (h : Stops rest) :
    findNumbers none ('.' :: (natStr c ++ rest)) = c :: findNumbers none rest := by
  show findNumbers none (natStr c ++ rest) = _
  rw [findNumbers_none, findNumbers_stop h]

/-- The libraries for which `warp_affine` takes the matrix the wrong way round: cv2 4.13 with float64 and nearest
neighbours, until kwimage 0.12. -/
def Defective (kw : Nat × Nat) (cv : Option (Nat × Nat)) (f64 : Bool) (b : Backend) : Prop :=
  (kw.1 = 0 ∧ kw.2 < 12) ∧ cv = some (4, 13) ∧ f64 = true ∧ b ≠ .other

/-- The mode is `inverse` exactly for the libraries with the defect. -/
theorem C67_mode (kw : Nat × Nat) (c : Nat) (r1 : Str) (h1 : Stops r1) (cv : Option (Nat × Nat)) (r2 : Str)
    (h2 : Stops r2) (f64 : Bool) (b : Backend) :
    inverseMode ⟨version kw.1 kw.2 ('.' :: (natStr c ++ r1)), cv.map fun v => version v.1 v.2 r2⟩ f64 true b = true ↔
      Defective kw cv f64 b := by
  unfold inverseMode Defective
  simp only
  rw [versionTuple_version _ _ (by intro x xs e; cases e; rfl), findNumbers_patch c h1]
  have hge : tupleGe (kw.1 :: kw.2 :: c :: findNumbers none r1) [0, 12, 0] = true ↔ ¬(kw.1 = 0 ∧ kw.2 < 12) := by
    simp only [tupleGe]
    split
    · next e0 =>
      split
      · next e1 =>
        split
        · simp [e0, e1]
        · next e2 => simp only [decide_eq_true_eq]; omega
      · next e1 => simp only [decide_eq_true_eq]; omega
    · next e0 => simp only [decide_eq_true_eq]; omega
  by_cases hk : kw.1 = 0 ∧ kw.2 < 12
  · rw [if_neg (by rw [hge]; exact fun h => h hk)]
    cases cv with
    | none => simp
    | some v =>
      simp only [Option.map_some, Option.isSome_some]
      rw [versionTuple_version _ _ h2]
      cases b <;> cases f64 <;> simp [hk, Prod.ext_iff]
  · rw [if_pos (hge.2 hk)]
    simp [hk]

/-- C67: if the resampling of the installed libraries takes the matrix the wrong way round exactly where it is known
to, the result is the one of `Raster.lean`, whatever is installed.  Missing: versions of kwimage with fewer than three
numbers, see the witness. -/
theorem C67_versions_partial (E : Env V) (tf : Affine) (htf : tf.det ≠ 0) (d : Int × Int) (a : Algo) (i : Img V)
    (kw : Nat × Nat) (c : Nat) (r1 : Str) (h1 : Stops r1) (cv : Option (Nat × Nat)) (r2 : Str) (h2 : Stops r2)
    (f64 : Bool) (b : Backend) (call : Affine → Img V)
    (hbad : Defective kw cv f64 b → ∀ m, call m = E.warp m.inv d a i)
    (hgood : ¬Defective kw cv f64 b → ∀ m, call m = E.warp m d a i) :
    nearestOn ⟨version kw.1 kw.2 ('.' :: (natStr c ++ r1)), cv.map fun v => version v.1 v.2 r2⟩ f64 b call E tf d i =
      nearestGuess E tf d a i := by
  have hm := C67_mode kw c r1 h1 cv r2 h2 f64 b
  unfold nearestOn nearestGuess
  by_cases hd : Defective kw cv f64 b
  · rw [if_pos (hm.2 hd), if_pos (hm.2 hd)]
    simp only [hbad hd, Affine.inv_inv _ htf]
  · have hf : ¬ inverseMode ⟨version kw.1 kw.2 ('.' :: (natStr c ++ r1)), cv.map fun v => version v.1 v.2 r2⟩
        f64 true b = true := fun h => hd (hm.1 h)
    rw [if_neg hf, if_neg hf]
    simp only [hgood hd]

/-- cv2 4.13.0-dev with kwimage 0.11.4 is recognized, kwimage 0.12.0 and cv2 4.12 are not. -/
example : inverseMode ⟨p! "0.11.4", some (p! "4.13.0-dev")⟩ true true .auto = true ∧
    inverseMode ⟨p! "0.12.0", some (p! "4.13.0-dev")⟩ true true .auto = false ∧
    inverseMode ⟨p! "0.11.4", some (p! "4.12.0")⟩ true true .auto = false ∧
    version 4 13 (p! ".0-dev") = p! "4.13.0-dev" ∧ Stops (p! ".0-dev") ∧ Defective (0, 11) (some (4, 13)) true .auto := by
  refine ⟨by decide, by decide, by decide, by decide, ?_, ⟨⟨rfl, by decide⟩, rfl, rfl, by simp⟩⟩
  intro c cs e
  cases e
  rfl

/-- Resampling that shows the matrix. -/
def matrixEnv : Env ℚ where
  img := fun _ => ⟨1, 1, 1, fun _ _ _ => 0⟩
  deq := fun _ v => v
  nan := 0
  border := fun _ => 0
  warp := fun m d _ i => ⟨d.2.toNat, d.1.toNat, i.n, fun _ _ _ => m.a⟩
  resize := fun _ i => i
  finite := fun _ => true
  unique := fun _ => 1
  overview := fun _ _ i => i

/-- C67 fails for a version of kwimage that is written with two numbers: `0.12` passes for older than `0.12.0`, and
the inverse of the matrix is tried first. -/
theorem C67_short_version_violated :
    let tf : Affine := ⟨2, 0, 0, 0, -2, 0⟩
    let i : Img ℚ := ⟨2, 2, 1, fun _ _ _ => 1⟩
    let rt : Runtime := ⟨p! "0.12", some (p! "4.13.0")⟩
    let call : Affine → Img ℚ := fun m => matrixEnv.warp m (2, 2) .default i
    ¬Defective (0, 12) (some (4, 13)) true .auto ∧ inverseMode rt true true .auto = true ∧
    (nearestGuess matrixEnv tf (2, 2) .default i).px 0 0 0 = 2 ∧
    (nearestOn rt true .auto call matrixEnv tf (2, 2) i).px 0 0 0 = 1 / 2 := by
  refine ⟨fun h => absurd h.1.2 (by decide), by decide, by decide +kernel, by decide +kernel⟩

end Verif.Props
