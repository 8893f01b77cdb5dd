/-
C47 (lazy files return the stored pixels), C48 (no-data pixels) and C49 (overviews).
-/
import Verif.Gdal
import Verif.PyLemmas
import Verif.Props.Loader
import Mathlib.Tactic.Linarith

namespace Verif.Props

open Verif.Gdal
open Verif.Loader (Part rowsRead bandsRead gdalRead)

/-! ### Specification -/

/-- The pixels of a band at a level: the band itself, or one of its overviews. -/
def levelOf (o : Nat) (b : Band) : Option Plane :=
  match o with
  | 0 => some b.toPlane
  | k + 1 => b.ovs[k]?

/-- The values of a type: whole numbers of 8, 16 or 32 bits with or without a sign, and all floats (exact here). -/
def Stored : DType → Val → Prop
  | .uint8, v => ∃ k : Int, 0 ≤ k ∧ k < 2 ^ 8 ∧ v = .num k
  | .uint16, v => ∃ k : Int, 0 ≤ k ∧ k < 2 ^ 16 ∧ v = .num k
  | .uint32, v => ∃ k : Int, 0 ≤ k ∧ k < 2 ^ 32 ∧ v = .num k
  | .int16, v => ∃ k : Int, -2 ^ 15 ≤ k ∧ k < 2 ^ 15 ∧ v = .num k
  | .int32, v => ∃ k : Int, -2 ^ 31 ≤ k ∧ k < 2 ^ 31 ∧ v = .num k
  | .float32, _ => True
  | .float64, _ => True

/-- A file whose bands all exist at a level, with one type and one size there, and whose pixels are
values of that type. -/
structure RegularFile (f : File) (o : Nat) (d : DType) (h w : Nat) : Prop where
  level : ∀ b ∈ f.bands, ∃ p, levelOf o b = some p ∧ p.dtype = d ∧ p.h = h ∧ p.w = w ∧
    ∀ i j, Stored d (p.px i j)
  main : f.first.dtype = d
  dataset : ∀ k, o = k + 1 → f.ownDataset k = true
  plain : f.subdatasets = false

/-- The selected bands, by Python index, at a level. -/
def Picked (f : File) (o : Nat) (b : Int) (p : Plane) : Prop :=
  ∃ n : Nat, ((n : Int) = b ∨ (n : Int) = b + f.bands.length ∧ b < 0) ∧
    ∃ band, f.bands[n]? = some band ∧ levelOf o band = some p

/-- A pixel that equals the no-data value of its band, as numbers compare. -/
def Missing (p : Plane) (v : Val) : Prop := v ≠ .nan ∧ p.nodata = some v

open Classical in
/-- What is shown for a stored pixel: as is without a method; flagged by `'ma'`; NaN by the others. -/
noncomputable def shown (m : Option Str) (p : Plane) (v : Val) : Val × Bool :=
  if m = none then (v, false)
  else if m = some (p! "ma") then (v, decide (Missing p v))
  else (if Missing p v then .nan else v, false)

/-- The method names that mean something. -/
def Known (m : Option Str) : Prop :=
  m = none ∨ m = some (p! "ma") ∨ m = some (p! "float") ∨ m = some (p! "nan") ∨ m = some (p! "auto")

/-- The array that should come back for rows, columns and bands. -/
noncomputable def wanted (m : Option Str) (d : DType) (rows cols : List Nat) (ps : List Plane) : Arr where
  dtype := if m = none ∨ m = some (p! "ma") then d else d.promote
  flat := decide (ps.length = 1)
  masked := decide (m = some (p! "ma"))
  data := rows.map (fun i => cols.map (fun j => ps.map (fun p => shown m p (p.px i j))))

/-! ### Lemmas -/

namespace GdalAux

theorem gdalRead_length {skip : Bool} {D : Nat} {w : Int × Int} {rows : List Nat}
    (h : gdalRead skip D w = .ok rows) : rows.length = w.2.toNat := by
  unfold gdalRead at h
  split at h
  · rename_i h0
    split at h
    · cases h; simp [h0]
    · cases h
  · split at h
    · cases h; simp
    · cases h

theorem round_int (k : Int) : ((k : ℚ) + 1 / 2).floor = k := by
  have h1 : (k : ℚ) ≤ (k : ℚ) + 1 / 2 := by linarith
  have h2 : (k : ℚ) + 1 / 2 < ((k + 1 : Int) : ℚ) := by
    rw [Int.cast_add, Int.cast_one]; linarith
  have a := Rat.le_floor_iff.2 h1
  have b := Rat.floor_lt_iff.2 h2
  omega

theorem Stored.cast {d : DType} {v : Val} (h : Stored d v) : d.cast v = v := by
  cases d with
  | float32 => rfl
  | float64 => rfl
  | _ =>
    obtain ⟨k, h1, h2, rfl⟩ := h
    simp only [DType.cast, DType.range, round_int]
    congr 2
    omega

theorem cast_promote (d : DType) (v : Val) : d.promote.cast v = v := by cases d <;> rfl

theorem readPlanes_ok {skip : Bool} {d : DType} {y x : Int × Int} {h w : Nat} {rows cols : List Nat}
    (hr : gdalRead skip h y = .ok rows) (hc : gdalRead skip w x = .ok cols) :
    ∀ (ps : List Plane),
      (∀ p ∈ ps, p.h = h ∧ p.w = w ∧ ∀ i j, d.cast (p.px i j) = p.px i j) →
      readPlanes skip d y x ps = .ok (ps.map (fun p => rows.map (fun i => cols.map (fun j => p.px i j))))
  | [], _ => rfl
  | p :: ps, hp => by
    obtain ⟨h1, h2, h3⟩ := hp p (List.mem_cons_self ..)
    have ih := readPlanes_ok hr hc ps (fun q hq => hp q (List.mem_cons_of_mem _ hq))
    simp only [readPlanes, readPlane, h1, h2, hr, hc, ih, h3, List.map_cons]

theorem toHWC_map {α β} (dflt : α) (rows cols : List Nat) (ps : List β) (g : β → Nat → Nat → α) :
    toHWC dflt rows.length cols.length
        (ps.map (fun p => rows.map (fun i => cols.map (fun j => g p i j)))) =
      rows.map (fun i => cols.map (fun j => ps.map (fun p => g p i j))) := by
  apply List.ext_getElem
  · simp [toHWC]
  · intro i h1 h2
    simp only [List.length_map] at h2
    apply List.ext_getElem
    · simp [toHWC]
    · intro j h3 h4
      simp only [List.getElem_map, List.length_map] at h4
      simp [toHWC, h2, h4]

theorem maskOf_map (p : Plane) (rows cols : List Nat) (g : Nat → Nat → Val) :
    maskOf p (rows.map (fun i => cols.map (fun j => g i j))) =
      rows.map (fun i => cols.map (fun j =>
        match p.nodata with | none => false | some nd => npEqual (g i j) nd)) := by
  unfold maskOf
  cases p.nodata <;> simp [List.map_map, Function.comp_def]

open Classical in
theorem missing_mask (p : Plane) (v : Val) :
    (match p.nodata with | none => false | some nd => npEqual v nd) = decide (Missing p v) := by
  unfold Missing
  cases h : p.nodata with
  | none => simp
  | some nd =>
    cases v with
    | nan => simp [npEqual]
    | num a =>
      cases nd with
      | nan => simp [npEqual]
      | num b => simp [npEqual, eq_comm]

theorem applyMethod_ok (m : Option Str) (hm : Known m) (d : DType) (rows cols : List Nat)
    (ps : List Plane) :
    applyMethod (if m = some (p! "auto") then some (p! "float") else m) d rows.length cols.length ps
        (ps.map (fun p => rows.map (fun i => cols.map (fun j => p.px i j)))) =
      .ok (wanted m d rows cols ps) := by
  have hmask : List.zipWith maskOf ps
      (ps.map (fun p => rows.map (fun i => cols.map (fun j => p.px i j)))) =
      ps.map (fun p => rows.map (fun i => cols.map (fun j =>
        match p.nodata with | none => false | some nd => npEqual (p.px i j) nd))) := by
    rw [List.zipWith_map_right, List.zipWith_self]
    exact List.map_congr_left (fun p _ => maskOf_map p rows cols _)
  have hz : ∀ {α β γ δ : Type} (f : β → γ → δ) (g : α → β) (k : α → γ) (xs : List α),
      List.zipWith f (xs.map g) (xs.map k) = xs.map (fun x => f (g x) (k x)) := by
    intro α β γ δ f g k xs
    rw [List.zipWith_map, List.zipWith_self]
  have n1 : p! "auto" ≠ p! "ma" := by decide
  have n2 : p! "float" ≠ p! "ma" := by decide
  have n3 : p! "nan" ≠ p! "ma" := by decide
  have n4 : p! "nan" ≠ p! "float" := by decide
  have n5 : p! "ma" ≠ p! "auto" := by decide
  have n6 : p! "float" ≠ p! "auto" := by decide
  have n7 : p! "nan" ≠ p! "auto" := by decide
  rcases hm with rfl | rfl | rfl | rfl | rfl
  · simp only [if_neg (show ¬ (none : Option Str) = some (p! "auto") by simp), applyMethod,
      toHWC_map]
    simp [wanted, shown, List.map_map, Function.comp_def]
  · rw [if_neg (by simpa using n5)]
    simp only [applyMethod, hmask, toHWC_map, hz, if_true, missing_mask]
    simp [wanted, shown]
  · rw [if_neg (by simpa using n6)]
    simp only [applyMethod, hmask, toHWC_map, hz, missing_mask, if_neg n2]
    simp [wanted, shown, n2, List.map_map, Function.comp_def, cast_promote]
    intro i _ j _ p _
    by_cases hp : Missing p (p.px i j) <;> simp [hp]
  · rw [if_neg (by simpa using n7)]
    simp only [applyMethod, hmask, toHWC_map, hz, missing_mask, if_neg n3]
    simp [wanted, shown, n3, List.map_map, Function.comp_def, cast_promote]
    intro i _ j _ p _
    by_cases hp : Missing p (p.px i j) <;> simp [hp]
  · rw [if_pos rfl]
    simp only [applyMethod, hmask, toHWC_map, hz, missing_mask, if_neg n2]
    simp [wanted, shown, n1, List.map_map, Function.comp_def, cast_promote]
    intro i _ j _ p _
    by_cases hp : Missing p (p.px i j) <;> simp [hp]

theorem allSome_map {α β} (g : α → Option β) (k : α → β) :
    ∀ xs : List α, (∀ a ∈ xs, g a = some (k a)) → allSome (xs.map g) = some (xs.map k)
  | [], _ => rfl
  | a :: xs, h => by
    simp only [List.map_cons, h a (List.mem_cons_self ..), allSome,
      allSome_map g k xs (fun b hb => h b (List.mem_cons_of_mem _ hb))]

/-- A plane for each band. -/
noncomputable def at_ (o : Nat) (b : Band) : Plane := (levelOf o b).getD b.toPlane

theorem level_eq {f : File} {o : Nat} {d : DType} {h w : Nat} (R : RegularFile f o d h w) {b : Band}
    (hb : b ∈ f.bands) : levelOf o b = some (at_ o b) := by
  obtain ⟨p, hp, _⟩ := R.level b hb
  simp [at_, hp]

theorem getOv_level (o k : Nat) (e : o = k + 1) (b : Band) :
    b.getOverview ((o : Int) - 1) = levelOf o b := by
  subst e
  have : ((k + 1 : Nat) : Int) - 1 = (k : Int) := by omega
  simp [Band.getOverview, levelOf, this]

theorem ovs_length {f : File} {o k : Nat} {d : DType} {h w : Nat} (R : RegularFile f o d h w)
    (e : o = k + 1) : k < f.first.ovs.length := by
  obtain ⟨p, hp, _⟩ := R.level f.first (List.mem_cons_self ..)
  subst e
  simp only [levelOf] at hp
  exact (List.getElem?_eq_some_iff.1 hp).1

theorem shape_ok {f : File} {o : Nat} {m : Option Str} {d : DType} {h w : Nat}
    (R : RegularFile f o d h w) :
    Lazy.shape { file := f, overview := o, method := m } = .ok (h, w, f.bands.length) := by
  obtain ⟨p, hp, _, hh, hw, _⟩ := R.level f.first (List.mem_cons_self ..)
  cases o with
  | zero =>
    simp only [levelOf, Option.some.injEq] at hp
    subst hp
    simp [Lazy.shape, hh, hw]
  | succ k =>
    have hk := ovs_length R rfl
    have e1 : min ((k + 1 : Nat) : Int) (f.first.ovs.length : Int) = ((k + 1 : Nat) : Int) := by omega
    have e2 : (((k + 1 : Nat) : Int)) ≠ 0 := by omega
    simp only [Lazy.shape, e1, if_pos e2, getOv_level (k + 1) k rfl, hp, hh, hw]
    rw [if_neg (by omega)]

theorem readBands_ok {f : File} {o : Nat} {m : Option Str} {d : DType} {h w : Nat}
    (R : RegularFile f o d h w) :
    Lazy.readBands { file := f, overview := o, method := m } = .ok (f.bands.map (at_ o)) := by
  cases o with
  | zero =>
    rw [Lazy.readBands, if_pos (by simp)]
    simp [at_, levelOf]
  | succ k =>
    have hk := ovs_length R rfl
    rw [Lazy.readBands, if_neg (by simp only []; omega), if_neg (by simp; omega)]
    simp only [getOv_level (k + 1) k rfl]
    rw [allSome_map (levelOf (k + 1)) (at_ (k + 1)) f.bands (fun b hb => level_eq R hb)]

theorem readDs_ok {f : File} {o : Nat} {m : Option Str} {d : DType} {h w : Nat}
    (R : RegularFile f o d h w) :
    Lazy.readDs { file := f, overview := o, method := m } =
      .ok (f.bands.map (fun b => some (at_ o b))) := by
  cases o with
  | zero =>
    rw [Lazy.readDs, if_pos (by simp)]
    simp [at_, levelOf]
  | succ k =>
    have hk := ovs_length R rfl
    have e : (((k + 1 : Nat) : Int) - 1).toNat = k := by omega
    rw [Lazy.readDs, if_neg (by simp only []; omega), if_neg (by simp; omega)]
    simp only [e, R.dataset k rfl, if_true, getOv_level (k + 1) k rfl]
    congr 1
    exact List.map_congr_left (fun b hb => level_eq R hb)

/-- The wrapped index. -/
def wrap (n : Nat) (b : Int) : Nat := (if b < 0 then b + n else b).toNat

theorem pyGets_ok {α β} (xs : List α) (g : α → β) :
    ∀ bands : List Int, (∀ b ∈ bands, -(xs.length : Int) ≤ b ∧ b < xs.length) →
      ∃ as : List α, pyGets (xs.map g) bands = .ok (as.map g) ∧
        List.Forall₂ (fun b a => xs[wrap xs.length b]? = some a) bands as
  | [], _ => ⟨[], rfl, .nil⟩
  | b :: bs, h => by
    obtain ⟨as, h1, h2⟩ := pyGets_ok xs g bs (fun c hc => h c (List.mem_cons_of_mem _ hc))
    obtain ⟨h3, h4⟩ := h b (List.mem_cons_self ..)
    have hlt : wrap xs.length b < xs.length := by unfold wrap; split <;> omega
    refine ⟨xs[wrap xs.length b] :: as, ?_, .cons (List.getElem?_eq_getElem hlt) h2⟩
    have hj : ¬ ((if b < 0 then b + (xs.length : Int) else b) < 0) := by split <;> omega
    have e : pyGet (xs.map g) b = .ok (g xs[wrap xs.length b]) := by
      simp only [pyGet, List.length_map]
      rw [if_neg hj]
      show (match (xs.map g)[wrap xs.length b]? with
        | none => Except.error PyErr.indexError
        | some a => Except.ok a) = _
      rw [List.getElem?_map, List.getElem?_eq_getElem hlt]
      rfl
    simp only [pyGets, e, h1, List.map_cons]

theorem pickDs_ok {α} (xs : List α) (g : α → Plane) :
    ∀ (bands : List Int) (as : List α) (ps : List Plane),
      List.Forall₂ (fun b a => xs[wrap xs.length b]? = some a) bands as →
      pickDs (xs.map (fun a => some (g a))) bands = .ok ps → ps = as.map g
  | [], _, _, .nil, h => by cases h; rfl
  | b :: bs, _, ps, .cons (b := a) h1 h2, h => by
    unfold pickDs at h
    split at h
    · rename_i hb
      have e : wrap xs.length b = b.toNat := by
        unfold wrap; rw [if_neg (by omega)]
      rw [e] at h1
      rw [List.getElem?_map, h1] at h
      simp only [Option.map_some] at h
      cases hrec : pickDs (xs.map (fun a => some (g a))) bs with
      | error e => rw [hrec] at h; cases h
      | ok qs =>
        rw [hrec] at h
        cases h
        rw [pickDs_ok xs g bs _ qs h2 hrec, List.map_cons]
    · cases h

theorem rowsRead_inv {skip : Bool} {p : Part} {D : Nat} {rows : List Nat}
    (h : rowsRead skip p D = .ok rows) :
    ∃ r w, Loader.rectify p D = .ok r ∧ Loader.windowOf r = .ok w ∧ gdalRead skip D w = .ok rows := by
  unfold rowsRead at h
  cases h1 : Loader.rectify p D with
  | error e => rw [h1] at h; cases h
  | ok r =>
    rw [h1, Except.ok_bind'] at h
    cases h2 : Loader.windowOf r with
    | error e => rw [h2] at h; cases h
    | ok w => rw [h2, Except.ok_bind'] at h; exact ⟨r, w, rfl, h2, h⟩

theorem bandsRead_inv {p : Part} {C : Nat} {bands : List Int} (h : bandsRead p C = .ok bands) :
    ∃ r, Loader.rectify p C = .ok r ∧ Loader.bandsOf C r = bands := by
  unfold bandsRead at h
  cases h1 : Loader.rectify p C with
  | error e => rw [h1] at h; cases h
  | ok r =>
    rw [h1, Except.ok_bind'] at h
    cases h
    exact ⟨r, rfl, rfl⟩

end GdalAux

open GdalAux

/-! ### C47 -/

/-- C47: for a regular file at an existing level, reading any rows and columns (as C22 says which) and
any non-empty choice of bands gives exactly the stored pixels of those bands at that level, whichever
of the two strategies is switched on. -/
theorem C47_pixels (W : World) (f : File) (o : Nat) (m : Option Str) (d : DType) (h w : Nat)
    (R : RegularFile f o d h w) (hm : Known m)
    (y x c : Part) (rows cols : List Nat) (bands : List Int)
    (hy : y ≠ .ellipsis) (hx : x ≠ .ellipsis) (hc : c ≠ .ellipsis)
    (hrows : rowsRead W.skip y h = .ok rows) (hcols : rowsRead W.skip x w = .ok cols)
    (hbands : bandsRead c f.bands.length = .ok bands) (hne : bands ≠ [])
    (hin : ∀ b ∈ bands, -(f.bands.length : Int) ≤ b ∧ b < f.bands.length) :
    ∃ ps, List.Forall₂ (Picked f o) bands ps ∧
      getItem W { file := f, overview := o, method := m } [y, x, c] = .ok (wanted m d rows cols ps) := by
  obtain ⟨bs, hget, hsel⟩ := pyGets_ok f.bands (at_ o) bands hin
  have hmem : ∀ b ∈ bs, b ∈ f.bands := by
    intro b hb
    clear hget hbands hne hin
    induction hsel with
    | nil => cases hb
    | cons h1 _ ih =>
      rcases List.mem_cons.1 hb with rfl | hb
      · exact List.mem_of_getElem? h1
      · exact ih hb
  have hps : ∀ p ∈ bs.map (at_ o), p.h = h ∧ p.w = w ∧ p.dtype = d ∧
      ∀ i j, d.cast (p.px i j) = p.px i j := by
    intro p hp
    obtain ⟨b, hb, rfl⟩ := List.mem_map.1 hp
    obtain ⟨q, h1, h2, h3, h4, h5⟩ := R.level b (hmem b hb)
    rw [level_eq R (hmem b hb)] at h1
    cases h1
    exact ⟨h3, h4, h2, fun i j => Stored.cast (h5 i j)⟩
  have hbsne : bs ≠ [] := by
    rintro rfl
    cases hsel
    exact hne rfl
  refine ⟨bs.map (at_ o), ?_, ?_⟩
  · clear hget hne hbands hps hbsne
    induction hsel with
    | nil => exact .nil
    | cons h1 _ ih =>
      rename_i b a _ _ _
      refine .cons ?_ (ih (fun b hb => hin b (List.mem_cons_of_mem _ hb))
        (fun b hb => hmem b (List.mem_cons_of_mem _ hb)))
      obtain ⟨h3, h4⟩ := hin b (List.mem_cons_self ..)
      refine ⟨wrap f.bands.length b, ?_, a, h1, level_eq R (hmem a (List.mem_cons_self ..))⟩
      unfold wrap
      split <;> omega
  · have E : Loader.expandIndex [y, x, c] = .ok [y, x, c] := by
      simp [Loader.expandIndex, List.countP_cons, hy, hx, hc]
    obtain ⟨yp, wy, hy1, hy2, hy3⟩ := rowsRead_inv hrows
    obtain ⟨xp, wx, hx1, hx2, hx3⟩ := rowsRead_inv hcols
    obtain ⟨cp, hc1, hc2⟩ := bandsRead_inv hbands
    have hr := readPlanes_ok (d := d) hy3 hx3 (bs.map (at_ o))
      (fun p hp => ⟨(hps p hp).1, (hps p hp).2.1, (hps p hp).2.2.2⟩)
    have happ := applyMethod_ok m hm d rows cols (bs.map (at_ o))
    rw [gdalRead_length hy3, gdalRead_length hx3] at happ
    have hcompat : compatRead W { file := f, overview := o, method := m } wy wx bands
        (if m = some (p! "auto") then some (p! "float") else m) =
          .ok (wanted m d rows cols (bs.map (at_ o))) := by
      simp only [compatRead, readBands_ok R, hget, vendoredRead, R.plain]
      cases hbs : bs.map (at_ o) with
      | nil => exact absurd (List.map_eq_nil_iff.1 hbs) hbsne
      | cons p0 rest =>
        have hd : p0.dtype = d := (hps p0 (by rw [hbs]; exact List.mem_cons_self ..)).2.2.1
        rw [hbs] at hr happ
        simp only [hd, hr, happ, Bool.false_eq_true, if_false]
    have hfast : ∀ a, fastRead W.skip { file := f, overview := o, method := m } wy wx bands
        (if m = some (p! "auto") then some (p! "float") else m) = .ok a →
          a = wanted m d rows cols (bs.map (at_ o)) := by
      intro a ha
      simp only [fastRead, if_neg hne, readDs_ok R] at ha
      cases hp : pickDs (f.bands.map (fun b => some (at_ o b))) bands with
      | error e => rw [hp] at ha; cases ha
      | ok ps =>
        have := pickDs_ok f.bands (at_ o) bands bs ps hsel hp
        subst this
        rw [hp] at ha
        have hd : bufferType f (bs.map (at_ o)) = d := by
          unfold bufferType
          split
          · rename_i p hp1
            exact (hps p (by rw [hp1]; exact List.mem_cons_self ..)).2.2.1
          · exact R.main
        simp only [hd, hr, happ] at ha
        cases ha
        rfl
    simp only [getItem, shape_ok R, R.plain, E, List.getD_cons_zero, List.getD_cons_succ, hy1, hx1,
      hc1, hy2, hx2, hc2, hcompat]
    simp only [Bool.false_eq_true, and_false, if_false]
    cases W.fast with
    | false => rfl
    | true =>
      simp only [if_true]
      cases hf : fastRead W.skip { file := f, overview := o, method := m } wy wx bands
        (if m = some (p! "auto") then some (p! "float") else m) with
      | error e => rfl
      | ok a => rw [hfast a hf]

/-! Files to read from. -/

/-- Four by four pixels counting from one; two by two on the overview, in tens; `5` and `30` mean no
data. -/
def gridBand : Band where
  dtype := .int16
  nodata := some (.num 5)
  w := 4
  h := 4
  px := fun i j => .num ((4 * (i % 4) + j % 4 + 1 : Nat) : ℚ)
  ovs := [{ dtype := .int16, nodata := some (.num 30), w := 2, h := 2,
            px := fun i j => .num ((10 * (2 * (i % 2) + j % 2 + 1) : Nat) : ℚ) }]

/-- The same band twice. -/
def gridFile : File where
  first := gridBand
  rest := [gridBand]
  ownDataset := fun _ => true
  subdatasets := false
  bandInterleave := false

/-- A world without help from kwimage. -/
def alone (fast : Bool) : World where
  fast := fast
  skip := true
  upstream := fun _ _ _ _ _ _ => .error .generic

theorem gridFile_ok : RegularFile gridFile 0 .int16 4 4 ∧ RegularFile gridFile 1 .int16 2 2 := by
  have hc : ∀ n : Nat, n ≤ 40 → Stored .int16 (.num (n : ℚ)) :=
    fun n hn => ⟨n, by omega, by omega, by rw [Int.cast_natCast]⟩
  constructor <;>
    refine ⟨?_, rfl, fun _ _ => rfl, rfl⟩ <;> intro b hb <;>
    simp only [gridFile, File.bands, List.mem_cons, List.not_mem_nil, or_false, or_self] at hb <;>
    subst hb
  · exact ⟨gridBand.toPlane, rfl, rfl, rfl, rfl, fun i j => hc _ (by omega)⟩
  · exact ⟨_, rfl, rfl, rfl, rfl, fun i j => hc _ (by omega)⟩

example : getItem (alone true) { file := gridFile, overview := (0 : Nat), method := none }
    [.slice (some 1) (some 3), .int 2, .list [-1, 0]] =
      .ok { dtype := .int16, flat := false, masked := false,
            data := [[[(.num 7, false), (.num 7, false)]], [[(.num 11, false), (.num 11, false)]]] } := by
  decide +kernel

/-- C47: which strategy is switched on, and what kwimage would answer, do not matter. -/
theorem C47_strategies_agree (W W' : World) (hskip : W.skip = W'.skip)
    (f : File) (o : Nat) (m : Option Str) (d : DType) (h w : Nat)
    (R : RegularFile f o d h w) (hm : Known m)
    (y x c : Part) (rows cols : List Nat) (bands : List Int)
    (hy : y ≠ .ellipsis) (hx : x ≠ .ellipsis) (hc : c ≠ .ellipsis)
    (hrows : rowsRead W.skip y h = .ok rows) (hcols : rowsRead W.skip x w = .ok cols)
    (hbands : bandsRead c f.bands.length = .ok bands) (hne : bands ≠ [])
    (hin : ∀ b ∈ bands, -(f.bands.length : Int) ≤ b ∧ b < f.bands.length) :
    getItem W { file := f, overview := o, method := m } [y, x, c] =
      getItem W' { file := f, overview := o, method := m } [y, x, c] := by
  have key : ∀ {ps qs : List Plane}, List.Forall₂ (Picked f o) bands ps →
      List.Forall₂ (Picked f o) bands qs → ps = qs := by
    intro ps qs h1 h2
    clear hbands hne
    induction h1 generalizing qs with
    | nil => cases h2; rfl
    | cons a _ ih =>
      cases h2 with
      | cons a' r' =>
        rw [ih (fun b hb => hin b (List.mem_cons_of_mem _ hb)) r']
        obtain ⟨h3, h4⟩ := hin _ (List.mem_cons_self ..)
        obtain ⟨n, hn, b1, e1, e2⟩ := a
        obtain ⟨n', hn', b2, e3, e4⟩ := a'
        have b3 := (List.getElem?_eq_some_iff.1 e1).1
        have b4 := (List.getElem?_eq_some_iff.1 e3).1
        have : n = n' := by omega
        subst this
        rw [e1] at e3
        cases e3
        rw [e2] at e4
        cases e4
        rfl
  obtain ⟨ps, h1, h2⟩ := C47_pixels W f o m d h w R hm y x c rows cols bands hy hx hc hrows hcols
    hbands hne hin
  obtain ⟨qs, h3, h4⟩ := C47_pixels W' f o m d h w R hm y x c rows cols bands hy hx hc
    (hskip ▸ hrows) (hskip ▸ hcols) hbands hne hin
  rw [h2, h4, key h1 h3]

/-- C47: reading everything gives an array of the announced shape, but for the channel axis of a file
with one band. -/
theorem C47_announced_shape (W : World) (f : File) (o : Nat) (m : Option Str) (d : DType) (h w : Nat)
    (R : RegularFile f o d h w) (hm : Known m) (hh : 0 < h) (hw : 0 < w) :
    Lazy.shape { file := f, overview := o, method := m } = .ok (h, w, f.bands.length) ∧
    ∃ a, getItem W { file := f, overview := o, method := m } [] = .ok a ∧
      a.flat = decide (f.bands.length = 1) ∧ a.data.length = h ∧
      ∀ row ∈ a.data, row.length = w ∧ ∀ px ∈ row, px.length = f.bands.length := by
  refine ⟨shape_ok R, ?_⟩
  have hb : bandsRead (.slice none none) f.bands.length =
      .ok ((List.range f.bands.length).map (fun (n : Nat) => (n : Int))) := by
    rw [C22_slice_bands_partial _ none none (by simp) (by simp)]
    congr 2
    rw [npSlice, List.filter_eq_self]
    intro k hk
    rw [List.mem_range] at hk
    simp; omega
  have hlen : 0 < f.bands.length := by simp [File.bands]
  obtain ⟨ps, h1, h2⟩ := C47_pixels W f o m d h w R hm (.slice none none) (.slice none none)
    (.slice none none) _ _ _ (by simp) (by simp) (by simp) (C22_full_axis W.skip h hh).2
    (C22_full_axis W.skip w hw).2 hb
    (by
      intro h0
      have := congrArg List.length h0
      simp only [List.length_map, List.length_range, List.length_nil] at this
      omega)
    (by intro b hb'; simp only [List.mem_map, List.mem_range] at hb'; omega)
  have hl := h1.length_eq
  simp only [List.length_map, List.length_range] at hl
  refine ⟨wanted m d (List.range h) (List.range w) ps, ?_, ?_, ?_, ?_⟩
  · rw [← h2]; rfl
  · simp [wanted, ← hl]
  · simp [wanted]
  · intro row hrow
    simp only [wanted, List.mem_map, List.mem_range] at hrow
    obtain ⟨i, _, rfl⟩ := hrow
    refine ⟨by simp, ?_⟩
    intro px hpx
    simp only [List.mem_map, List.mem_range] at hpx
    obtain ⟨j, _, rfl⟩ := hpx
    simp [← hl]

example : ∃ a, getItem (alone false) { file := gridFile, overview := (1 : Nat), method := none } [] = .ok a ∧
    a.data.map (List.map (List.map Prod.fst)) =
      [[[.num 10, .num 10], [.num 20, .num 20]], [[.num 30, .num 30], [.num 40, .num 40]]] := by
  refine ⟨_, rfl, ?_⟩
  decide +kernel

/-- A file with a byte band and a float band. -/
def mixedFile : File where
  first := { dtype := .uint8, nodata := none, w := 1, h := 1, px := fun _ _ => .num 7, ovs := [] }
  rest := [{ dtype := .float32, nodata := none, w := 1, h := 1, px := fun _ _ => .num (1 / 4), ovs := [] }]
  ownDataset := fun _ => true
  subdatasets := false
  bandInterleave := false

/-- C47, what fails without a common type: read together, the float band is rounded to bytes, and a
quarter becomes zero; read alone, it is a quarter. -/
theorem C47_mixed_types_violated :
    getItem (alone true) { file := mixedFile, overview := 0, method := none } [] =
      .ok { dtype := .uint8, flat := false, masked := false,
            data := [[[(.num 7, false), (.num 0, false)]]] } ∧
    getItem (alone true) { file := mixedFile, overview := 0, method := none }
        [.none, .none, .list [1]] =
      .ok { dtype := .float32, flat := true, masked := false, data := [[[(.num (1 / 4), false)]]] } := by
  constructor <;> decide +kernel

/-- C47, what fails without a common type: the two strategies choose different types. -/
theorem C47_strategies_differ_violated :
    getItem (alone true) { file := mixedFile, overview := 0, method := none }
        [.none, .none, .list [1, 0]] =
      .ok { dtype := .uint8, flat := false, masked := false,
            data := [[[(.num 0, false), (.num 7, false)]]] } ∧
    getItem (alone false) { file := mixedFile, overview := 0, method := none }
        [.none, .none, .list [1, 0]] =
      .ok { dtype := .float32, flat := false, masked := false,
            data := [[[(.num (1 / 4), false), (.num 7, false)]]] } := by
  constructor <;> decide +kernel

/-- C47, what fails: the shape of a file with one band has three axes, its array has two. -/
theorem C47_one_band_violated :
    let f : File := { gridFile with rest := [] }
    Lazy.shape { file := f, overview := 0, method := none } = .ok (4, 4, 1) ∧
    (getItem (alone true) { file := f, overview := 0, method := none } []).toOption.map (·.flat) =
      some true := by
  constructor <;> decide +kernel

/-- C47: with the fast strategy, selecting no band gives an array of the window without channels. -/
theorem C47_no_bands (W : World) (f : File) (o : Nat) (m : Option Str) (d : DType) (h w : Nat)
    (R : RegularFile f o d h w) (hW : W.fast = true)
    (y x c : Part) (rows cols : List Nat)
    (hy : y ≠ .ellipsis) (hx : x ≠ .ellipsis) (hc : c ≠ .ellipsis)
    (hrows : rowsRead W.skip y h = .ok rows) (hcols : rowsRead W.skip x w = .ok cols)
    (hbands : bandsRead c f.bands.length = .ok []) :
    getItem W { file := f, overview := o, method := m } [y, x, c] =
      .ok { dtype := d, flat := false, masked := false, data := rows.map (fun _ => cols.map (fun _ => [])) } := by
  have E : Loader.expandIndex [y, x, c] = .ok [y, x, c] := by
    simp [Loader.expandIndex, List.countP_cons, hy, hx, hc]
  obtain ⟨yp, wy, hy1, hy2, hy3⟩ := rowsRead_inv hrows
  obtain ⟨xp, wx, hx1, hx2, hx3⟩ := rowsRead_inv hcols
  obtain ⟨cp, hc1, hc2⟩ := bandsRead_inv hbands
  have pos : ∀ {D : Nat} {w : Int × Int} {r : List Nat}, gdalRead W.skip D w = .ok r → ¬ w.2 < 0 := by
    intro D w r hr hn
    unfold gdalRead at hr
    rw [if_neg (by omega), if_neg (by omega)] at hr
    cases hr
  have hneg : ¬ (wy.2 < 0 ∨ wx.2 < 0) := fun hn => hn.elim (pos hy3) (pos hx3)
  simp only [getItem, shape_ok R, R.plain, E, List.getD_cons_zero, List.getD_cons_succ, hy1, hx1,
    hc1, hy2, hx2, hc2, hW, fastRead, if_neg hneg, Bool.false_eq_true, and_false, if_false, if_true, R.main,
    List.map_const', gdalRead_length hy3, gdalRead_length hx3]

example : getItem (alone true) { file := gridFile, overview := 0, method := none }
    [.slice (some 1) (some 3), .int 0, .list []] =
      .ok { dtype := .int16, flat := false, masked := false, data := [[[]], [[]]] } := by decide +kernel

/-! ### C48 -/

/-- C48: `'auto'` is `'float'`, for every file, level and index. -/
theorem C48_auto (W : World) (f : File) (o : Int) (index : List Part) :
    getItem W { file := f, overview := o, method := some (p! "auto") } index =
      getItem W { file := f, overview := o, method := some (p! "float") } index := rfl

open Classical in
theorem shown_ma (p : Plane) (v : Val) : (shown (some (p! "ma")) p v).1 = v ∧
    (p.nodata ≠ some .nan → ((shown (some (p! "ma")) p v).2 = true ↔ p.nodata = some v)) := by
  have e : shown (some (p! "ma")) p v = (v, decide (Missing p v)) := by
    simp [shown]
  rw [e]
  refine ⟨rfl, fun hn => ?_⟩
  rw [decide_eq_true_iff]
  refine ⟨And.right, fun e => ⟨fun e' => ?_, e⟩⟩
  rw [e'] at e
  exact hn e

/-- C48: with `'ma'` the array is masked, has the stored values, and masks exactly the pixels equal to
the no-data value of their own band; missing from the full statement: no-data values that are NaN. -/
theorem C48_masked_partial (W : World) (f : File) (o : Nat) (d : DType) (h w : Nat)
    (R : RegularFile f o d h w)
    (y x c : Part) (rows cols : List Nat) (bands : List Int)
    (hy : y ≠ .ellipsis) (hx : x ≠ .ellipsis) (hc : c ≠ .ellipsis)
    (hrows : rowsRead W.skip y h = .ok rows) (hcols : rowsRead W.skip x w = .ok cols)
    (hbands : bandsRead c f.bands.length = .ok bands) (hne : bands ≠ [])
    (hin : ∀ b ∈ bands, -(f.bands.length : Int) ≤ b ∧ b < f.bands.length) :
    ∃ a ps, getItem W { file := f, overview := o, method := some (p! "ma") } [y, x, c] = .ok a ∧
      a.masked = true ∧ a.dtype = d ∧ List.Forall₂ (Picked f o) bands ps ∧
      a.data.length = rows.length ∧
      ∀ i (hi : i < rows.length) (hi' : i < a.data.length), a.data[i].length = cols.length ∧
        ∀ j (hj : j < cols.length) (hj' : j < a.data[i].length), a.data[i][j].length = ps.length ∧
          ∀ k (hk : k < ps.length) (hk' : k < a.data[i][j].length),
            a.data[i][j][k].1 = ps[k].px rows[i] cols[j] ∧
            (ps[k].nodata ≠ some .nan →
              (a.data[i][j][k].2 = true ↔ ps[k].nodata = some (ps[k].px rows[i] cols[j]))) := by
  obtain ⟨ps, h1, h2⟩ := C47_pixels W f o (some (p! "ma")) d h w R (by simp [Known]) y x c rows cols bands
    hy hx hc hrows hcols hbands hne hin
  refine ⟨_, ps, h2, by simp [wanted], by simp [wanted], h1, by simp [wanted], ?_⟩
  intro i hi hi'
  refine ⟨by simp [wanted], ?_⟩
  intro j hj hj'
  refine ⟨by simp [wanted], ?_⟩
  intro k hk hk'
  have hcell : (wanted (some (p! "ma")) d rows cols ps).data[i][j][k] =
      shown (some (p! "ma")) ps[k] (ps[k].px rows[i] cols[j]) := by simp [wanted]
  rw [hcell]
  exact shown_ma _ _

example : getItem (alone true) { file := gridFile, overview := (1 : Nat), method := some (p! "ma") }
    [.int 1, .none, .int 0] =
      .ok { dtype := .int16, flat := true, masked := true,
            data := [[[(.num 30, true)], [(.num 40, false)]]] } := by decide +kernel

/-- All values of the type are exact in single precision. -/
def Single (d : DType) : Prop :=
  d = .float32 ∨ ∀ v, Stored d v → ∃ k : Int, -2 ^ 24 ≤ k ∧ k ≤ 2 ^ 24 ∧ v = .num k

theorem single_iff (d : DType) : Single d ↔ d ∈ [.uint8, .uint16, .int16, .float32] := by
  cases d with
  | float32 => simp [Single]
  | float64 =>
    simp only [Single, reduceCtorEq, false_or, List.mem_cons, List.not_mem_nil, or_self, iff_false]
    intro h
    obtain ⟨k, _, _, e⟩ := h .nan trivial
    cases e
  | uint32 =>
    simp only [Single, reduceCtorEq, false_or, List.mem_cons, List.not_mem_nil, or_self, iff_false]
    intro h
    obtain ⟨k, _, h2, e⟩ := h (.num ((2 ^ 31 : Int) : ℚ)) ⟨2 ^ 31, by norm_num, by norm_num, rfl⟩
    have : (2 ^ 31 : Int) = k := by exact_mod_cast Val.num.inj e
    omega
  | int32 =>
    simp only [Single, reduceCtorEq, false_or, List.mem_cons, List.not_mem_nil, or_self, iff_false]
    intro h
    obtain ⟨k, _, h2, e⟩ := h (.num ((2 ^ 30 : Int) : ℚ)) ⟨2 ^ 30, by norm_num, by norm_num, rfl⟩
    have : (2 ^ 30 : Int) = k := by exact_mod_cast Val.num.inj e
    omega
  | _ =>
    simp only [List.mem_cons, List.not_mem_nil, reduceCtorEq, or_true, true_or, or_false, false_or, iff_true]
    right
    rintro v ⟨k, h1, h2, rfl⟩
    exact ⟨k, by omega, by omega, rfl⟩

/-- C48: with `'float'`, `'nan'` or `'auto'` the array is a float array (of single precision if that holds all
values of the stored type, else of double precision), is NaN exactly where the stored
pixel is NaN or the no-data value of its own band, and has the stored value elsewhere. -/
theorem C48_nan (W : World) (f : File) (o : Nat) (m : Str) (d : DType) (h w : Nat)
    (R : RegularFile f o d h w) (hm : m = p! "float" ∨ m = p! "nan" ∨ m = p! "auto")
    (y x c : Part) (rows cols : List Nat) (bands : List Int)
    (hy : y ≠ .ellipsis) (hx : x ≠ .ellipsis) (hc : c ≠ .ellipsis)
    (hrows : rowsRead W.skip y h = .ok rows) (hcols : rowsRead W.skip x w = .ok cols)
    (hbands : bandsRead c f.bands.length = .ok bands) (hne : bands ≠ [])
    (hin : ∀ b ∈ bands, -(f.bands.length : Int) ≤ b ∧ b < f.bands.length) :
    ∃ a ps, getItem W { file := f, overview := o, method := some m } [y, x, c] = .ok a ∧
      a.masked = false ∧ ((Single d ∧ a.dtype = .float32) ∨ (¬ Single d ∧ a.dtype = .float64)) ∧
      List.Forall₂ (Picked f o) bands ps ∧ a.data.length = rows.length ∧
      ∀ i (hi : i < rows.length) (hi' : i < a.data.length), a.data[i].length = cols.length ∧
        ∀ j (hj : j < cols.length) (hj' : j < a.data[i].length), a.data[i][j].length = ps.length ∧
          ∀ k (hk : k < ps.length) (hk' : k < a.data[i][j].length),
            (a.data[i][j][k].1 = .nan ↔ ps[k].px rows[i] cols[j] = .nan ∨
              ps[k].nodata = some (ps[k].px rows[i] cols[j])) ∧
            (a.data[i][j][k].1 ≠ .nan → a.data[i][j][k].1 = ps[k].px rows[i] cols[j]) := by
  have hma : m ≠ p! "ma" := by rcases hm with rfl | rfl | rfl <;> decide
  obtain ⟨ps, h1, h2⟩ := C47_pixels W f o (some m) d h w R
    (by rcases hm with rfl | rfl | rfl <;> simp [Known]) y x c rows cols bands
    hy hx hc hrows hcols hbands hne hin
  refine ⟨_, ps, h2, by simpa [wanted] using hma, ?_, h1, by simp [wanted], ?_⟩
  · simp only [wanted, reduceCtorEq, false_or, Option.some.injEq, if_neg hma]
    rw [single_iff]
    cases d <;> simp [DType.promote]
  intro i hi hi'
  refine ⟨by simp [wanted], ?_⟩
  intro j hj hj'
  refine ⟨by simp [wanted], ?_⟩
  intro k hk hk'
  simp only [wanted, List.getElem_map, shown, reduceCtorEq, if_false, Option.some.injEq, if_neg hma]
  by_cases hmiss : Missing ps[k] (ps[k].px rows[i] cols[j])
  · rw [if_pos hmiss]
    exact ⟨⟨fun _ => .inr hmiss.2, fun _ => rfl⟩, fun h => absurd rfl h⟩
  · rw [if_neg hmiss]
    refine ⟨⟨.inl, ?_⟩, fun _ => rfl⟩
    rintro (e | e)
    · exact e
    · by_contra hv
      exact hmiss ⟨hv, e⟩

example : getItem (alone true) { file := gridFile, overview := (0 : Nat), method := some (p! "auto") }
    [.int 1, .slice none (some 2), .int 1] =
      .ok { dtype := .float32, flat := true, masked := false,
            data := [[[(.nan, false)], [(.num 6, false)]]] } := by decide +kernel

/-- C48: an unknown method is refused by both strategies: no array comes back unless kwimage's reader
makes one or no band is selected. -/
theorem C48_unknown (W : World) (l : Lazy) (m : Str) (hm : ¬ Known (some m)) (hl : l.method = some m)
    (hup : ∀ y x bands, ∃ e, W.upstream l.file l.overview y x bands (some m) = .error e)
    (y x c : Part) (hy : y ≠ .ellipsis) (hx : x ≠ .ellipsis) (hc : c ≠ .ellipsis)
    (hb : bandsRead c l.file.bands.length ≠ .ok []) :
    ∃ e, getItem W l [y, x, c] = .error e := by
  have hk : m ≠ p! "ma" ∧ ¬ (m = p! "float" ∨ m = p! "nan") ∧ m ≠ p! "auto" := by
    refine ⟨?_, ?_, ?_⟩
    · rintro rfl; exact hm (by simp [Known])
    · rintro (rfl | rfl) <;> exact hm (by simp [Known])
    · rintro rfl; exact hm (by simp [Known])
  have happ : ∀ d h w ps ims, applyMethod (some m) d h w ps ims = .error .keyError := by
    intro d h w ps ims
    simp only [applyMethod, if_neg hk.1, if_neg hk.2.1]
  have hcompat : ∀ wy wx bands, ∃ e, compatRead W l wy wx bands (some m) = .error e := by
    intro wy wx bands
    unfold compatRead
    cases l.readBands with
    | error e => exact ⟨e, rfl⟩
    | ok bs =>
      simp only []
      cases pyGets bs bands with
      | error e => exact ⟨e, rfl⟩
      | ok ps =>
        simp only [vendoredRead, happ]
        split
        · rename_i a ha
          exfalso
          split at ha
          · cases ha
          · split at ha
            · cases ha
            · split at ha <;> cases ha
        · exact hup wy wx bands
  have hfast : ∀ wy wx bands, bands ≠ [] → ∃ e, fastRead W.skip l wy wx bands (some m) = .error e := by
    intro wy wx bands hne
    unfold fastRead
    rw [if_neg hne]
    cases l.readDs with
    | error e => exact ⟨e, rfl⟩
    | ok ds =>
      simp only []
      cases pickDs ds bands with
      | error e => exact ⟨e, rfl⟩
      | ok ps =>
        simp only [happ]
        split <;> exact ⟨_, rfl⟩
  have E : Loader.expandIndex [y, x, c] = .ok [y, x, c] := by
    simp [Loader.expandIndex, List.countP_cons, hy, hx, hc]
  have hauto : ¬ (some m = some (p! "auto")) := by simpa using hk.2.2
  unfold getItem
  cases hs : l.shape with
  | error e => exact ⟨e, rfl⟩
  | ok s =>
    obtain ⟨h, w, cc⟩ := s
    have hcc : cc = l.file.bands.length := by
      unfold Lazy.shape at hs
      simp only [] at hs
      repeat' split at hs
      all_goals first | (cases hs; done) | (cases hs; rfl)
    subst hcc
    simp only [E, List.getD_cons_zero, List.getD_cons_succ, hl, if_neg hauto]
    split
    · exact ⟨_, rfl⟩
    cases Loader.rectify y h with
    | error e => exact ⟨e, rfl⟩
    | ok yp =>
      simp only []
      cases Loader.rectify x w with
      | error e => exact ⟨e, rfl⟩
      | ok xp =>
        simp only []
        cases hcp : Loader.rectify c l.file.bands.length with
        | error e => exact ⟨e, rfl⟩
        | ok cp =>
          simp only []
          have hne : Loader.bandsOf l.file.bands.length cp ≠ [] := by
            intro h0
            apply hb
            simp only [bandsRead, hcp, Except.ok_bind', h0]
          cases Loader.windowOf yp with
          | error e => exact ⟨e, rfl⟩
          | ok wy =>
            simp only []
            cases Loader.windowOf xp with
            | error e => exact ⟨e, rfl⟩
            | ok wx =>
              simp only []
              split
              · obtain ⟨e, he⟩ := hfast wy wx _ hne
                rw [he]
                exact hcompat wy wx _
              · exact hcompat wy wx _

example : getItem (alone true) { file := gridFile, overview := 0, method := some (p! "masked") } [] =
    .error .generic ∧ ¬ Known (some (p! "masked")) := by
  refine ⟨by decide +kernel, by simp [Known]⟩

/-- C48, what fails: when the no-data value is NaN (the usual choice for floats), `'ma'` masks nothing. -/
theorem C48_nan_nodata_violated :
    let f : File := { first := { dtype := .float32, nodata := some .nan, w := 2, h := 1,
                                 px := fun _ j => if j = 0 then .nan else .num 1, ovs := [] },
                      rest := [], ownDataset := fun _ => true, subdatasets := false,
                      bandInterleave := false }
    ∀ fast, getItem (alone fast) { file := f, overview := 0, method := some (p! "ma") } [] =
      .ok { dtype := .float32, flat := true, masked := true,
            data := [[[(.nan, false)], [(.num 1, false)]]] } := by
  intro f fast
  cases fast <;> decide +kernel

/-! ### C49 -/

/-- C49: overviews of overviews add up; the file and the method are kept, and the number of remaining
overviews goes down by as much. -/
theorem C49_compose (f : File) (m : Option Str) (o : Option Int) (a b : Int) :
    let l := Lazy.new f m o
    (l.getOverview a).getOverview b = l.getOverview (a + b) ∧
    l.getOverview 0 = l ∧
    (l.getOverview a).numOverviews = l.numOverviews - a ∧
    (l.getOverview a).file = f ∧ (l.getOverview a).method = m := by
  refine ⟨?_, ?_, ?_, rfl, rfl⟩
  · simp only [Lazy.getOverview, Lazy.getAbsoluteOverview, Lazy.new, Lazy.mk.injEq, true_and, and_true]
    omega
  · simp [Lazy.getOverview, Lazy.getAbsoluteOverview, Lazy.new]
  · simp only [Lazy.getOverview, Lazy.getAbsoluteOverview, Lazy.new, Lazy.numOverviews]
    omega

example : ((Lazy.new gridFile none none).getOverview 1).numOverviews = 0 := by decide

/-- C49: up to the number of overviews, the shape is that of the overview in the file; past it, when
there are any overviews, asking for the shape or for pixels is a value error. -/
theorem C49_shape (W : World) (f : File) (m : Option Str) (k : Nat) (index : List Part) :
    let l := (Lazy.new f m none).getOverview k
    (∀ p, levelOf k f.first = some p → l.shape = .ok (p.h, p.w, f.bands.length)) ∧
    ((k : Int) > (Lazy.new f m none).numOverviews → (Lazy.new f m none).numOverviews ≠ 0 →
      l.shape = .error .valueError ∧ getItem W l index = .error .valueError) := by
  intro l
  have hl : l = { file := f, overview := (k : Int), method := m } := by
    simp [l, Lazy.getOverview, Lazy.getAbsoluteOverview, Lazy.new]
  rw [hl]
  constructor
  · intro p hp
    cases k with
    | zero =>
      simp only [levelOf, Option.some.injEq] at hp
      subst hp
      simp [Lazy.shape]
    | succ k =>
      have hk : k < f.first.ovs.length := by
        simp only [levelOf] at hp
        exact (List.getElem?_eq_some_iff.1 hp).1
      have e1 : min ((k + 1 : Nat) : Int) (f.first.ovs.length : Int) = ((k + 1 : Nat) : Int) := by omega
      have e2 : (((k + 1 : Nat) : Int)) ≠ 0 := by omega
      simp only [Lazy.shape, e1, if_pos e2, getOv_level (k + 1) k rfl, hp]
      rw [if_neg (by omega)]
  · intro h1 h2
    simp only [Lazy.new, Lazy.numOverviews] at h1 h2
    have e1 : min (k : Int) (f.first.ovs.length : Int) = (f.first.ovs.length : Int) := by omega
    have e2 : (k : Int) ≠ 0 := by omega
    have e3 : (f.first.ovs.length : Int) ≠ 0 := by omega
    have hs : Lazy.shape { file := f, overview := (k : Int), method := m } = .error .valueError := by
      simp only [Lazy.shape, e1, if_pos e2, if_pos e3]
      rw [if_pos (by omega)]
    exact ⟨hs, by simp only [getItem, hs]⟩

example : Lazy.shape ((Lazy.new gridFile none none).getOverview 1) = .ok (2, 2, 2) ∧
    Lazy.shape ((Lazy.new gridFile none none).getOverview 2) = .error .valueError := by
  constructor <;> decide +kernel

/-- C49: the pixels of an overview of an overview are those of the summed level. -/
theorem C49_pixels (W : World) (f : File) (a b : Nat) (m : Option Str) (d : DType) (h w : Nat)
    (R : RegularFile f (a + b) d h w) (hm : Known m)
    (y x c : Part) (rows cols : List Nat) (bands : List Int)
    (hy : y ≠ .ellipsis) (hx : x ≠ .ellipsis) (hc : c ≠ .ellipsis)
    (hrows : rowsRead W.skip y h = .ok rows) (hcols : rowsRead W.skip x w = .ok cols)
    (hbands : bandsRead c f.bands.length = .ok bands) (hne : bands ≠ [])
    (hin : ∀ b ∈ bands, -(f.bands.length : Int) ≤ b ∧ b < f.bands.length) :
    ∃ ps, List.Forall₂ (Picked f (a + b)) bands ps ∧
      getItem W (((Lazy.new f m none).getOverview a).getOverview b) [y, x, c] =
        .ok (wanted m d rows cols ps) := by
  have e : ((Lazy.new f m none).getOverview a).getOverview b =
      { file := f, overview := ((a + b : Nat) : Int), method := m } := by
    simp only [Lazy.getOverview, Lazy.getAbsoluteOverview, Lazy.new, Lazy.mk.injEq, true_and, and_true]
    omega
  rw [e]
  exact C47_pixels W f (a + b) m d h w R hm y x c rows cols bands hy hx hc hrows hcols hbands hne hin

/-- C49, what fails: a file without overviews announces its full size for any overview, and then cannot
be read there. -/
theorem C49_no_overviews_violated :
    let f : File := { gridFile with first := { gridBand with ovs := [] }, rest := [] }
    let l := (Lazy.new f none none).getOverview 1
    l.shape = .ok (4, 4, 1) ∧ ∀ fast, getItem (alone fast) l [] = .error .valueError := by
  refine ⟨by decide +kernel, ?_⟩
  intro fast
  cases fast <;> decide +kernel

/-- C49: pixels of a level that does not exist are never returned, also when the file has no overviews at all. -/
theorem C49_missing (W : World) (f : File) (m : Option Str) (k : Nat) (hk : f.first.ovs.length < k)
    (y x c : Part) (hy : y ≠ .ellipsis) (hx : x ≠ .ellipsis) (hc : c ≠ .ellipsis)
    (hb : bandsRead c f.bands.length ≠ .ok []) :
    ∃ e, getItem W ((Lazy.new f m none).getOverview k) [y, x, c] = .error e := by
  have hl : (Lazy.new f m none).getOverview k = { file := f, overview := (k : Int), method := m } := by
    simp [Lazy.getOverview, Lazy.getAbsoluteOverview, Lazy.new]
  rw [hl]
  have hcompat : ∀ wy wx bands m', compatRead W { file := f, overview := (k : Int), method := m } wy wx bands m' =
      .error .valueError := by
    intro wy wx bands m'
    unfold compatRead Lazy.readBands
    simp only []
    rw [if_neg (by omega), if_pos (by omega)]
  have hfast : ∀ wy wx bands m', bands ≠ [] →
      fastRead W.skip { file := f, overview := (k : Int), method := m } wy wx bands m' = .error .valueError := by
    intro wy wx bands m' hne
    unfold fastRead Lazy.readDs
    simp only []
    rw [if_neg hne, if_neg (by omega), if_pos (by omega)]
  have E : Loader.expandIndex [y, x, c] = .ok [y, x, c] := by
    simp [Loader.expandIndex, List.countP_cons, hy, hx, hc]
  unfold getItem
  cases hs : Lazy.shape { file := f, overview := (k : Int), method := m } with
  | error e => exact ⟨e, rfl⟩
  | ok s =>
    obtain ⟨h, w, cc⟩ := s
    have hcc : cc = f.bands.length := by
      unfold Lazy.shape at hs
      simp only [] at hs
      repeat' split at hs
      all_goals first | (cases hs; done) | (cases hs; rfl)
    subst hcc
    simp only [E, List.getD_cons_zero, List.getD_cons_succ]
    split
    · exact ⟨_, rfl⟩
    cases Loader.rectify y h with
    | error e => exact ⟨e, rfl⟩
    | ok yp =>
      simp only []
      cases Loader.rectify x w with
      | error e => exact ⟨e, rfl⟩
      | ok xp =>
        simp only []
        cases hcp : Loader.rectify c f.bands.length with
        | error e => exact ⟨e, rfl⟩
        | ok cp =>
          simp only []
          have hne : Loader.bandsOf f.bands.length cp ≠ [] := by
            intro h0
            apply hb
            simp only [bandsRead, hcp, Except.ok_bind', h0]
          cases Loader.windowOf yp with
          | error e => exact ⟨e, rfl⟩
          | ok wy =>
            simp only []
            cases Loader.windowOf xp with
            | error e => exact ⟨e, rfl⟩
            | ok wx =>
              simp only []
              split
              · rw [hfast wy wx _ _ hne]
                exact ⟨_, hcompat ..⟩
              · exact ⟨_, hcompat ..⟩

example : getItem (alone true) ((Lazy.new { gridFile with first := { gridBand with ovs := [] } } none none).getOverview 1)
    [.none, .none, .none] = .error .valueError := by decide +kernel

/-- C49, what fails: when GDAL cannot name the dataset of an overview, the fast strategy silently reads
a corner of the full image in its place; the other strategy reads the overview. -/
theorem C49_unnamed_dataset_violated :
    let f : File := { gridFile with rest := [], ownDataset := fun _ => false }
    let l := (Lazy.new f none none).getOverview 1
    l.shape = .ok (2, 2, 1) ∧
    getItem (alone true) l [] =
      .ok { dtype := .int16, flat := true, masked := false,
            data := [[[(.num 1, false)], [(.num 2, false)]], [[(.num 5, false)], [(.num 6, false)]]] } ∧
    getItem (alone false) l [] =
      .ok { dtype := .int16, flat := true, masked := false,
            data := [[[(.num 10, false)], [(.num 20, false)]], [[(.num 30, false)], [(.num 40, false)]]] } := by
  refine ⟨by decide +kernel, by decide +kernel, by decide +kernel⟩

/-- C49, what fails: going up from the full image is not refused as a value error. -/
theorem C49_negative_violated :
    Lazy.shape ((Lazy.new gridFile none none).getOverview (-1)) = .error .attributeError := by
  decide +kernel

end Verif.Props
