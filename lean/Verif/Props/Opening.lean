/-
C77: lazy files are opened once, and what is open stays open.
-/
import Verif.Opening
import Verif.Props.Envi

namespace Verif.Props

open Opening Loader

variable {D : Type}

/-! #### which file is opened -/

/-- What opening a file means: GDAL opens it, or there is an exception. -/
def opens (disk : Disk D) (path : Str) (r : Py D) : Prop :=
  match disk.gdal path with
  | some d => r = .ok d
  | none => ∃ e, r = .error e

theorem endsWith_append (stem suffix : Str) : endsWith (stem ++ suffix) suffix = true := by
  simp [endsWith]

theorem reload_none (disk : Disk D) (path : Str) : (reload disk none path).1 = none := by
  unfold reload
  cases dataPath disk path with
  | error e => rfl
  | ok p => cases h : disk.gdal p <;> simp [h]

/-- **C77**: the first access to a file opens it: the file itself, ... -/
theorem C77_opens (s : State D) (hc : s.cache = none) (i : Nat) (path : Str) (hi : s.objs[i]? = some ⟨path, none⟩)
    (hh : endsWith path (p! ".hdr") = false) : ∃ r, (act s (.access i)).2 = some r ∧ opens s.disk path r := by
  unfold act opens
  simp only [hi, hc]
  unfold reload dataPath
  rw [hh]
  simp only [Bool.false_eq_true, if_false, Option.bind_none]
  cases s.disk.gdal path with
  | none => exact ⟨_, rfl, _, rfl⟩
  | some d => exact ⟨_, rfl, rfl⟩

theorem baseName_hdr (dir : Str) {name : Str} (hn : '/' ∉ name) :
    baseName (dir ++ '/' :: name ++ p! ".hdr") = name ++ p! ".hdr" := by
  unfold baseName
  rw [List.append_assoc, List.cons_append, List.reverse_append, List.reverse_cons, List.append_assoc,
    List.takeWhile_append_of_pos]
  · simp
  · intro c hc
    rw [List.mem_reverse, List.mem_append] at hc
    rcases hc with h | h
    · simp only [decide_eq_true_eq]
      rintro rfl
      exact hn h
    · revert c
      decide

/-- **C77**: ... and for a header the file of the same name with the extension that the header gives. -/
theorem C77_opens_header (s : State D) (hc : s.cache = none) (i : Nat) (dir name ext text : Str)
    (hi : s.objs[i]? = some ⟨dir ++ '/' :: name ++ p! ".hdr", none⟩) (hn : '/' ∉ name) (hd : ∃ c ∈ name, c ≠ '.')
    (ht : s.disk.text (dir ++ '/' :: name ++ p! ".hdr") = some text) (he : Envi.dataExt text = .ok ext) :
    ∃ r, (act s (.access i)).2 = some r ∧ opens s.disk (dir ++ '/' :: name ++ ext) r := by
  have hb := baseName_hdr dir hn
  have ha : augHdr (dir ++ '/' :: name ++ p! ".hdr") ext = dir ++ '/' :: name ++ ext := by
    unfold augHdr
    rw [hb, if_neg]
    · rw [List.length_append, show (p! ".hdr").length = 4 from rfl, Nat.add_sub_cancel, List.take_left]
    · rw [List.length_append, show (p! ".hdr").length = 4 from rfl, Nat.add_sub_cancel, List.take_left]
      obtain ⟨c, h1, h2⟩ := hd
      intro h
      exact h2 (by simpa using List.all_eq_true.1 h c h1)
  have hp : dataPath s.disk (dir ++ '/' :: name ++ p! ".hdr") = .ok (dir ++ '/' :: name ++ ext) := by
    unfold dataPath
    rw [endsWith_append, if_pos rfl, ht]
    simp only [he, ha]
  unfold act opens
  simp only [hi, hc]
  unfold reload
  rw [hp]
  simp only [Option.bind_none]
  cases s.disk.gdal (dir ++ '/' :: name ++ ext) with
  | none => exact ⟨_, rfl, _, rfl⟩
  | some d => exact ⟨_, rfl, rfl⟩

/-- **C77**: ... except that a header whose name is only dots before the extension keeps it, and the extension of the
data comes after it. -/
theorem C77_opens_hidden (s : State D) (hc : s.cache = none) (i : Nat) (dir name ext text : Str)
    (hi : s.objs[i]? = some ⟨dir ++ '/' :: name ++ p! ".hdr", none⟩) (hd : ∀ c ∈ name, c = '.')
    (ht : s.disk.text (dir ++ '/' :: name ++ p! ".hdr") = some text) (he : Envi.dataExt text = .ok ext) :
    ∃ r, (act s (.access i)).2 = some r ∧ opens s.disk (dir ++ '/' :: name ++ p! ".hdr" ++ ext) r := by
  have hn : '/' ∉ name := fun h => absurd (hd _ h) (by decide)
  have ha : augHdr (dir ++ '/' :: name ++ p! ".hdr") ext = dir ++ '/' :: name ++ p! ".hdr" ++ ext := by
    unfold augHdr
    rw [baseName_hdr dir hn, List.length_append, show (p! ".hdr").length = 4 from rfl, Nat.add_sub_cancel,
      List.take_left, if_pos (List.all_eq_true.2 fun c hc => by simpa using hd c hc)]
  have hp : dataPath s.disk (dir ++ '/' :: name ++ p! ".hdr") = .ok (dir ++ '/' :: name ++ p! ".hdr" ++ ext) := by
    unfold dataPath
    rw [endsWith_append, if_pos rfl, ht]
    simp only [he, ha]
  unfold act opens
  simp only [hi, hc]
  unfold reload
  rw [hp]
  simp only [Option.bind_none]
  cases s.disk.gdal (dir ++ '/' :: name ++ p! ".hdr" ++ ext) with
  | none => exact ⟨_, rfl, _, rfl⟩
  | some d => exact ⟨_, rfl, rfl⟩

/-! #### what is open stays open -/

theorem act_keeps (s : State D) (a : Act D) {i : Nat} {p : Str} {d : D} (h : s.objs[i]? = some ⟨p, some d⟩) :
    (act s a).1.objs[i]? = some ⟨p, some d⟩ := by
  have hlt : i < s.objs.length := (List.getElem?_eq_some_iff.1 h).1
  cases a with
  | create q => simp only [act]; rw [List.getElem?_append_left hlt]; exact h
  | change disk => exact h
  | overview j =>
    simp only [act]
    cases s.objs[j]? with
    | none => exact h
    | some o => simp only; rw [List.getElem?_append_left hlt]; exact h
  | access j =>
    simp only [act]
    cases hj : s.objs[j]? with
    | none => exact h
    | some o =>
      simp only
      cases ho : o.ds with
      | some d' => exact h
      | none =>
        simp only
        rcases hr : reload s.disk s.cache o.fpath with ⟨c, r⟩
        cases r with
        | error e => exact h
        | ok d' =>
          simp only
          rw [List.getElem?_set_ne]
          · exact h
          · rintro rfl
            rw [h] at hj
            cases hj
            cases ho

theorem run_keeps {i : Nat} {p : Str} {d : D} : ∀ (as : List (Act D)) (s : State D),
    s.objs[i]? = some ⟨p, some d⟩ → (perform s as).1.objs[i]? = some ⟨p, some d⟩
  | [], _, h => h
  | a :: as, s, h => run_keeps as _ (act_keeps s a h)

theorem access_some {s : State D} {i : Nat} {p : Str} {d : D} (h : s.objs[i]? = some ⟨p, some d⟩) :
    act s (.access i) = (s, some (.ok d)) := by
  simp [act, h]

theorem access_ok {s : State D} {i : Nat} {d : D} (h : (act s (.access i)).2 = some (.ok d)) :
    ∃ p, (act s (.access i)).1.objs[i]? = some ⟨p, some d⟩ := by
  unfold act at h ⊢
  cases hi : s.objs[i]? with
  | none => simp [hi] at h
  | some o =>
    have hlt : i < s.objs.length := (List.getElem?_eq_some_iff.1 hi).1
    simp only [hi] at h ⊢
    cases ho : o.ds with
    | some d' =>
      simp only [ho, Option.some.injEq, Except.ok.injEq] at h ⊢
      subst h
      exact ⟨o.fpath, by rw [hi, ← ho]⟩
    | none =>
      simp only [ho] at h ⊢
      rcases hr : reload s.disk s.cache o.fpath with ⟨c, r⟩
      simp only [hr] at h ⊢
      cases r with
      | error e => simp at h
      | ok d' =>
        simp only [Option.some.injEq, Except.ok.injEq] at h ⊢
        subst h
        exact ⟨o.fpath, by rw [List.getElem?_set_self hlt]⟩

/-- **C77**: once the data of a file has been accessed, every later access to the object gives the same data,
whatever happens in between: the file may be written, removed, or opened by others, with or without the
cache. -/
theorem C77_kept (s : State D) (i : Nat) (d : D) (h : (act s (.access i)).2 = some (.ok d)) (as : List (Act D)) :
    (act (perform (act s (.access i)).1 as).1 (.access i)).2 = some (.ok d) := by
  obtain ⟨p, hp⟩ := access_ok h
  rw [access_some (run_keeps as _ hp)]

/-- **C77**: overviews taken afterwards show the same data, at any time. -/
theorem C77_overviews (s : State D) (i : Nat) (d : D) (h : (act s (.access i)).2 = some (.ok d)) (as bs : List (Act D)) :
    let s1 := (perform (act s (.access i)).1 as).1
    (act (perform (act s1 (.overview i)).1 bs).1 (.access s1.objs.length)).2 = some (.ok d) := by
  obtain ⟨p, hp⟩ := access_ok h
  intro s1
  have h1 : s1.objs[i]? = some ⟨p, some d⟩ := run_keeps as _ hp
  have h2 : (act s1 (.overview i)).1.objs[s1.objs.length]? = some ⟨p, some d⟩ := by
    simp only [act, h1]
    simp
  rw [access_some (run_keeps bs _ h2)]

theorem reload_error {disk : Disk D} {c c' : Option (Cache D)} {p : Str} {e : PyErr}
    (h : reload disk c p = (c', .error e)) : c' = c := by
  unfold reload at h
  cases hp : dataPath disk p with
  | error e' => simp [hp] at h; exact h.1.symm
  | ok q =>
    simp only [hp] at h
    cases hg : c.bind (fun c => odGet c.items q) with
    | some d => simp [hg] at h
    | none =>
      simp only [hg] at h
      cases hd : disk.gdal q with
      | none => simp [hd] at h; exact h.1.symm
      | some d => simp [hd] at h

/-- **C77**: an access that raises leaves nothing behind: it can be repeated when the file is there. -/
theorem C77_retry (s : State D) (i : Nat) (e : PyErr) (h : (act s (.access i)).2 = some (.error e)) :
    (act s (.access i)).1 = s := by
  unfold act at h ⊢
  cases hi : s.objs[i]? with
  | none => simp only [hi]
  | some o =>
    simp only [hi] at h ⊢
    cases ho : o.ds with
    | some d' => rfl
    | none =>
      simp only [ho] at h ⊢
      rcases hr : reload s.disk s.cache o.fpath with ⟨c, r⟩
      simp only [hr] at h ⊢
      cases r with
      | ok d => simp at h
      | error e' =>
        simp only
        rw [reload_error hr]

/-! #### the cache -/

theorem mem_odSet {κ α : Type} [DecidableEq κ] {l : List (κ × α)} {k k' : κ} {v v' : α} (h : (k', v') ∈ odSet l k v) :
    (k', v') = (k, v) ∨ (k', v') ∈ l := by
  induction l with
  | nil => simpa [odSet] using h
  | cons x l ih =>
    obtain ⟨k1, v1⟩ := x
    rw [odSet] at h
    split at h
    · rename_i hk
      rcases List.mem_cons.1 h with h | h
      · left; rw [h, hk]
      · exact .inr (List.mem_cons_of_mem _ h)
    · rcases List.mem_cons.1 h with h | h
      · exact .inr (by rw [h]; exact List.mem_cons_self ..)
      · rcases ih h with h | h
        · exact .inl h
        · exact .inr (List.mem_cons_of_mem _ h)

theorem mem_moveToEnd {κ α : Type} [DecidableEq κ] {l : List (κ × α)} {k : κ} {x : κ × α} (h : x ∈ moveToEnd l k) : x ∈ l := by
  simp only [moveToEnd, List.mem_append, List.mem_filter] at h
  rcases h with h | h <;> exact h.1

theorem mem_evict {κ α : Type} {n : Nat} {l : List (κ × α)} {x : κ × α} (h : x ∈ evict n l) : x ∈ l := by
  induction l with
  | nil => exact h
  | cons y l ih =>
    rw [evict] at h
    split at h
    · exact List.mem_cons_of_mem _ (ih h)
    · exact h

theorem odGet_mem' {κ α : Type} [DecidableEq κ] {l : List (κ × α)} {k : κ} {v : α} (h : odGet l k = some v) : (k, v) ∈ l := by
  induction l with
  | nil => simp [odGet] at h
  | cons y l ih =>
    obtain ⟨k1, v1⟩ := y
    rw [odGet] at h
    split at h
    · rename_i hk
      cases h
      rw [hk]; exact List.mem_cons_self ..
    · exact List.mem_cons_of_mem _ (ih h)

/-- What is in the cache is on the disk. -/
def Fresh (disk : Disk D) (c : Option (Cache D)) : Prop :=
  ∀ c', c = some c' → ∀ p d, (p, d) ∈ c'.items → disk.gdal p = some d

theorem reload_fresh {disk : Disk D} {c : Option (Cache D)} (hf : Fresh disk c) (p : Str) :
    Fresh disk (reload disk c p).1 ∧ (reload disk c p).2 = (reload disk none p).2 := by
  unfold reload
  cases dataPath disk p with
  | error e => exact ⟨hf, rfl⟩
  | ok q =>
    simp only [Option.bind_none]
    cases hg : c.bind (fun c => odGet c.items q) with
    | some d =>
      simp only
      obtain ⟨c0, rfl, h0⟩ := Option.bind_eq_some_iff.1 hg
      have hd := hf c0 rfl q d (odGet_mem' h0)
      refine ⟨?_, by simp [hd]⟩
      intro c' hc' p' d' hm
      simp only [Option.map_some, Option.some.injEq] at hc'
      subst hc'
      simp only [cacheGet, h0] at hm
      exact hf c0 rfl p' d' (mem_moveToEnd hm)
    | none =>
      simp only
      cases hd : disk.gdal q with
      | none => exact ⟨hf, rfl⟩
      | some d =>
        refine ⟨?_, rfl⟩
        intro c' hc' p' d' hm
        obtain ⟨c0, rfl, rfl⟩ := Option.map_eq_some_iff.1 hc'
        simp only [cacheSet] at hm
        rcases mem_odSet (mem_moveToEnd (mem_evict hm)) with h | h
        · cases h; exact hd
        · exact hf c0 rfl p' d' h

/-- Changes of the disk that keep the files that can be opened: new files may appear, and headers may be
written. -/
def Grows : Disk D → List (Act D) → Prop
  | _, [] => True
  | disk, .change disk' :: as => (∀ p d, disk.gdal p = some d → disk'.gdal p = some d) ∧ Grows disk' as
  | disk, .create _ :: as => Grows disk as
  | disk, .access _ :: as => Grows disk as
  | disk, .overview _ :: as => Grows disk as

theorem run_fresh : ∀ (as : List (Act D)) (disk : Disk D) (objs : List (Obj D)) (c : Option (Cache D)),
    Fresh disk c → Grows disk as → (perform ⟨disk, c, objs⟩ as).2 = (perform ⟨disk, none, objs⟩ as).2
  | [], _, _, _, _, _ => rfl
  | .create p :: as, disk, objs, c, hf, hg => by
    simp only [perform, act]
    rw [run_fresh as _ _ c hf hg]
  | .change disk' :: as, disk, objs, c, hf, hg => by
    simp only [perform, act]
    rw [run_fresh as _ _ c (fun c' h p d hm => hg.1 p d (hf c' h p d hm)) hg.2]
  | .overview i :: as, disk, objs, c, hf, hg => by
    simp only [perform, act]
    cases objs[i]? with
    | none => simp only; rw [run_fresh as _ _ c hf hg]
    | some o => simp only; rw [run_fresh as _ _ c hf hg]
  | .access i :: as, disk, objs, c, hf, hg => by
    simp only [perform, act]
    cases objs[i]? with
    | none => simp only; rw [run_fresh as _ _ c hf hg]
    | some o =>
      simp only
      cases o.ds with
      | some d => simp only; rw [run_fresh as _ _ c hf hg]
      | none =>
        simp only
        obtain ⟨h1, h2⟩ := reload_fresh hf o.fpath
        have h3 := reload_none disk o.fpath
        rcases hr : reload disk c o.fpath with ⟨c1, r1⟩
        rcases hr' : reload disk none o.fpath with ⟨c2, r2⟩
        rw [hr] at h1 h2
        rw [hr'] at h2 h3
        simp only at h1 h2 h3
        subst h2 h3
        cases r1 with
        | error e => simp only; rw [run_fresh as _ _ c1 h1 hg]
        | ok d => simp only; rw [run_fresh as _ _ c1 h1 hg]

/-- **C77**: the global cache of open files makes no difference, whatever its length and however files are
created, accessed and shared, as long as files that can be opened are not changed. -/
theorem C77_cache (disk : Disk D) (len : Nat) (as : List (Act D)) (hg : Grows disk as) :
    (perform ⟨disk, some ⟨len, []⟩, []⟩ as).2 = (perform ⟨disk, none, []⟩ as).2 :=
  run_fresh as disk [] _ (by rintro c' ⟨⟩ p d h; cases h) hg

/-- A disk with one file. -/
def oneFile (d : Nat) : Disk Nat := ⟨fun _ => none, fun p => if p = p! "a.tif" then some d else none⟩

/-- A file is accessed, another one is opened, and the first one is opened again. -/
example : Grows (oneFile 1) [.create (p! "a.tif"), .create (p! "b.tif"), .access 0, .access 1,
    .change ⟨fun _ => none, fun p => if p = p! "a.tif" then some 1 else some 2⟩, .access 1, .create (p! "a.tif"),
    .access 2] ∧
    (perform ⟨oneFile 1, some ⟨1, []⟩, []⟩ [.create (p! "a.tif"), .create (p! "b.tif"), .access 0, .access 1,
      .change ⟨fun _ => none, fun p => if p = p! "a.tif" then some 1 else some 2⟩, .access 1, .create (p! "a.tif"),
      .access 2]).2 = [.ok 1, .error .generic, .ok 2, .ok 1] := by
  refine ⟨⟨?_, trivial⟩, by decide⟩
  intro p d h
  simp only [oneFile] at h
  split at h
  · rename_i hp
    simp only [hp, if_true]; exact h
  · cases h

/-- **C77** fails with the cache when a file is changed: a new object shows the old data; without the cache it
shows the new data. -/
theorem C77_cache_violated :
    (perform ⟨oneFile 1, some ⟨10, []⟩, []⟩ [.create (p! "a.tif"), .access 0, .change (oneFile 2), .create (p! "a.tif"),
      .access 1]).2 = [.ok 1, .ok 1] ∧
    (perform ⟨oneFile 1, none, []⟩ [.create (p! "a.tif"), .access 0, .change (oneFile 2), .create (p! "a.tif"),
      .access 1]).2 = [.ok 1, .ok 2] := by decide

/-- **C77** fails for overviews taken before the first access: they open the file themselves, and may show
other data than the file they belong to. -/
theorem C77_overview_violated :
    (perform ⟨oneFile 1, none, []⟩ [.create (p! "a.tif"), .overview 0, .access 0, .change (oneFile 2), .access 1]).2 =
      [.ok 1, .ok 2] := by decide

/-- A header and the file it describes. -/
def headerDisk : Disk Nat :=
  ⟨fun p => if p = p! "d/x.hdr" then some (p! "ENVI\ninterleave = bsq") else none,
    fun p => if p = p! "d/x.bsq" then some 7 else none⟩

example : ∃ r, (act ⟨headerDisk, none, [⟨p! "d" ++ '/' :: p! "x" ++ p! ".hdr", none⟩]⟩ (.access 0)).2 = some r ∧
    opens headerDisk (p! "d" ++ '/' :: p! "x" ++ p! ".bsq") r :=
  C77_opens_header ⟨headerDisk, none, [⟨p! "d" ++ '/' :: p! "x" ++ p! ".hdr", none⟩]⟩ rfl 0 (p! "d") (p! "x")
    (p! ".bsq") (p! "ENVI\ninterleave = bsq") rfl (by decide) (by decide) (by decide) (by decide +kernel)

/-- A disk with a hidden header. -/
def hiddenDisk : Disk Nat := ⟨fun p => if p = p! "d/.hdr" then some (p! "ENVI\ninterleave = bsq") else none,
  fun p => if p = p! "d/.hdr.bsq" then some 7 else none⟩

example : ∃ r, (act ⟨hiddenDisk, none, [⟨p! "d" ++ '/' :: [] ++ p! ".hdr", none⟩]⟩ (.access 0)).2 = some r ∧
    opens hiddenDisk (p! "d" ++ '/' :: [] ++ p! ".hdr" ++ p! ".bsq") r :=
  C77_opens_hidden ⟨hiddenDisk, none, [⟨p! "d" ++ '/' :: [] ++ p! ".hdr", none⟩]⟩ rfl 0 (p! "d") []
    (p! ".bsq") (p! "ENVI\ninterleave = bsq") rfl (by decide) (by decide) (by decide +kernel)

end Verif.Props
