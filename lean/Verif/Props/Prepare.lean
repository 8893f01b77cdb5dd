/-
C53: `prepare` fills in what the user did not say, reads files only if needed, and operations on images that
are not prepared yet mean what they mean on prepared ones.
-/
import Verif.Prepare
import Verif.Props.Opt

namespace Verif.Props

open Tree Helpers

/-! ### files -/

/-- Everything `prepare` has to find out is known. -/
def Load.Complete (l : Load) : Prop :=
  (∃ w h, l.dsize = some (some w, some h)) ∧ (∃ c, l.nchan = some c) ∧ ∃ o, l.overviews = some o

theorem known_iff {d : Option Dim} {w h : Int} : Dim.known d = some (w, h) ↔ d = some (some w, some h) := by
  rcases d with _ | ⟨_ | a, _ | b⟩ <;> simp [Dim.known]

theorem known_pair {d : Option Dim} {s : Int × Int} : Dim.known d = some s ↔ d = Late.full s := by
  rcases d with _ | ⟨_ | a, _ | b⟩ <;> rcases s with ⟨w, h⟩ <;> simp [Dim.known, Late.full]

theorem skips_iff (l : Load) : l.skips = true ↔ Load.Complete l := by
  obtain ⟨id, d, c, n, o, a, p⟩ := l
  rcases d with _ | ⟨_ | w, _ | h⟩ <;> rcases c with _ | c <;> rcases o with _ | o <;>
    simp [Load.skips, Dim.known, Load.Complete]

/-- C53: a file whose metadata was given completely is not read: `prepare` succeeds and changes nothing, even
if there is no file.  Otherwise it fails if there is none. -/
theorem C53_reads_iff (gdal : Bool) (l : Load) :
    (Load.Complete l → ∀ disk, loadMetadata gdal disk l = .ok l) ∧
    (¬ Load.Complete l → ∀ disk : Disk, disk l.id = none → ∃ e, loadMetadata gdal disk l = .error e) := by
  constructor
  · intro h disk
    rw [loadMetadata, if_pos ((skips_iff l).2 h)]
  · intro h disk hd
    rw [loadMetadata, if_neg (fun hh => h ((skips_iff l).1 hh))]
    split
    · exact ⟨_, rfl⟩
    · rw [hd]; exact ⟨_, rfl⟩

/-- C53: after `prepare` everything is known.  A size or number of channels that was given completely is kept,
a missing one is that of the file; identity and codes stay.  A missing number of overviews is that of the file
with GDAL, and zero without. -/
theorem C53_metadata {gdal : Bool} {disk : Disk} {l l' : Load} (h : loadMetadata gdal disk l = .ok l') :
    Load.Complete l' ∧ l'.id = l.id ∧ l'.names = l.names ∧ l'.auto = l.auto ∧
    (∀ w h, l.dsize = some (some w, some h) → l'.dsize = l.dsize) ∧
    (∀ c, l.nchan = some c → l'.nchan = l.nchan) ∧
    (¬ (∃ w h, l.dsize = some (some w, some h)) →
      ∃ f, disk l.id = some f ∧ l'.dsize = some (some f.w, some f.h)) ∧
    (l.nchan = none → ∃ f, disk l.id = some f ∧ l'.nchan = some f.c) ∧
    (l.overviews = none → ∃ f, disk l.id = some f ∧
      (gdal = true → l'.overviews = some f.overviews) ∧ (gdal = false → l'.overviews = some 0)) := by
  rw [loadMetadata] at h
  split at h
  · rename_i hs
    cases h
    have hc := (skips_iff l).1 hs
    refine ⟨hc, rfl, rfl, rfl, fun _ _ _ => rfl, fun _ _ => rfl, fun hn => absurd hc.1 hn, ?_, ?_⟩
    · intro hn; obtain ⟨c, e⟩ := hc.2.1; rw [e] at hn; cases hn
    · intro hn; obtain ⟨c, e⟩ := hc.2.2; rw [e] at hn; cases hn
  · split at h
    · cases h
    · split at h
      · cases h
      · rename_i f hf
        cases h
        refine ⟨⟨?_, ?_, _, rfl⟩, rfl, rfl, rfl, ?_, ?_, ?_, ?_, ?_⟩
        · cases e : Dim.known l.dsize with
          | none => exact ⟨f.w, f.h, rfl⟩
          | some d => exact ⟨d.1, d.2, known_iff.1 (by rw [e])⟩
        · cases e : l.nchan with
          | none => exact ⟨f.c, by simp only⟩
          | some c => exact ⟨c, by simp only⟩
        · intro w h e; simp only [known_iff.2 e]
        · intro c e; simp only [e]
        · intro hn
          refine ⟨f, hf, ?_⟩
          cases e : Dim.known l.dsize with
          | none => rfl
          | some d => exact absurd ⟨d.1, d.2, known_iff.1 (by rw [e])⟩ hn
        · intro hn; exact ⟨f, hf, by simp only [hn]⟩
        · intro _; exact ⟨f, hf, fun hg => by simp only [hg, if_true], fun hg => by simp [hg]⟩

example : loadMetadata true (fun _ => some ⟨6, 4, 3, 1⟩) (mkLoad 0 (some [['r']]) (some (some 5, none)) none false) =
    .ok ⟨0, some (some 6, some 4), some 1, some [['r']], some 1, false, true⟩ := by decide

example : loadMetadata true (fun _ => none) (mkLoad 0 (some [['r']]) (some (some 5, some 4)) (some 0) false) =
    .ok (mkLoad 0 (some [['r']]) (some (some 5, some 4)) (some 0) false) := by decide

/-- C53, what fails for overviews: a number of overviews that was given is dropped if something else is
missing.  Here the image was said to have two overviews and the file has none. -/
theorem C53_overviews_violated :
    ∃ (l l' : Load) (disk : Disk), l.overviews = some 2 ∧ loadMetadata true disk l = .ok l' ∧
      l'.overviews = some 0 :=
  ⟨mkLoad 0 none none (some 2) false, _, fun _ => some ⟨6, 4, 3, 0⟩, rfl, rfl, rfl⟩

/-! ### trees -/

mutual
/-- The files of an image. -/
def loads : Late → List Load
  | .load l => [l]
  | .concat ps _ _ => loadsL ps
  | .warp s _ _ _ => loads s
  | .crop s _ _ _ _ _ => loads s
  | .overview s _ _ => loads s
  | .dequant s _ _ => loads s
def loadsL : List Late → List Load
  | [] => []
  | p :: ps => loads p ++ loadsL ps
end

mutual
theorem prepare_again {gdal : Bool} {disk : Disk} (gdal' : Bool) (disk' : Disk) : ∀ (n : Late) {n' : Late},
    n.prepare gdal disk = .ok n' → n'.prepare gdal' disk' = .ok n' ∧ ∀ l ∈ loads n', Load.Complete l
  | .load l, n', h => by
    rw [Late.prepare] at h
    split at h
    · cases h
    · rename_i l' hl
      cases h
      have hc := (C53_metadata hl).1
      refine ⟨?_, fun k hk => by rw [loads, List.mem_singleton] at hk; rw [hk]; exact hc⟩
      rw [Late.prepare, (C53_reads_iff gdal' l').1 hc disk']
  | .concat ps d c, n', h => by
    rw [Late.prepare] at h
    split at h
    · cases h
    · rename_i ps' hp
      cases h
      obtain ⟨h1, h2⟩ := prepareL_again gdal' disk' ps hp
      exact ⟨by rw [Late.prepare, h1], h2⟩
  | .warp s tf d a, n', h => by
    rw [Late.prepare] at h
    split at h
    · cases h
    · rename_i s' hs
      cases h
      obtain ⟨h1, h2⟩ := prepare_again gdal' disk' s hs
      exact ⟨by rw [Late.prepare, h1], h2⟩
  | .crop s y0 y1 x0 x1 c, n', h => by
    rw [Late.prepare] at h
    split at h
    · cases h
    · rename_i s' hs
      cases h
      obtain ⟨h1, h2⟩ := prepare_again gdal' disk' s hs
      exact ⟨by rw [Late.prepare, h1], h2⟩
  | .overview s k d, n', h => by
    rw [Late.prepare] at h
    split at h
    · cases h
    · rename_i s' hs
      cases h
      obtain ⟨h1, h2⟩ := prepare_again gdal' disk' s hs
      exact ⟨by rw [Late.prepare, h1], h2⟩
  | .dequant s q d, n', h => by
    rw [Late.prepare] at h
    split at h
    · cases h
    · rename_i s' hs
      cases h
      obtain ⟨h1, h2⟩ := prepare_again gdal' disk' s hs
      exact ⟨by rw [Late.prepare, h1], h2⟩
theorem prepareL_again {gdal : Bool} {disk : Disk} (gdal' : Bool) (disk' : Disk) : ∀ (ps : List Late)
    {ps' : List Late}, Late.prepareL gdal disk ps = .ok ps' →
      Late.prepareL gdal' disk' ps' = .ok ps' ∧ ∀ l ∈ loadsL ps', Load.Complete l
  | [], ps', h => by
    rw [Late.prepareL] at h
    cases h
    exact ⟨by rw [Late.prepareL], fun l hl => by cases hl⟩
  | p :: ps, ps', h => by
    rw [Late.prepareL] at h
    split at h
    · cases h
    · rename_i p' hp
      split at h
      · cases h
      · rename_i qs hq
        cases h
        obtain ⟨h1, h2⟩ := prepare_again gdal' disk' p hp
        obtain ⟨h3, h4⟩ := prepareL_again gdal' disk' ps hq
        refine ⟨by rw [Late.prepareL, h1, h3], fun l hl => ?_⟩
        rw [loadsL, List.mem_append] at hl
        exact hl.elim (h2 l) (h4 l)
end

/-- C53: `prepare` reaches every file of an image, and preparing again reads nothing and changes nothing, even
if the files are gone by then. -/
theorem C53_again {gdal : Bool} {disk : Disk} {n n' : Late} (h : n.prepare gdal disk = .ok n') :
    (∀ l ∈ loads n', Load.Complete l) ∧ ∀ disk' gdal', n'.prepare gdal' disk' = .ok n' :=
  ⟨(prepare_again gdal disk n h).2, fun disk' gdal' => (prepare_again gdal' disk' n h).1⟩

mutual
theorem prepare_total {gdal : Bool} {disk : Disk} : ∀ (n : Late),
    (∀ l ∈ loads n, ∃ l', loadMetadata gdal disk l = .ok l') → ∃ n', n.prepare gdal disk = .ok n'
  | .load l, h => by
    obtain ⟨l', hl⟩ := h l (by simp [loads])
    exact ⟨.load l', by rw [Late.prepare, hl]⟩
  | .concat ps d c, h => by
    obtain ⟨ps', hp⟩ := prepareL_total ps h
    exact ⟨_, by rw [Late.prepare, hp]⟩
  | .warp s tf d a, h => by
    obtain ⟨s', hs⟩ := prepare_total s h
    exact ⟨_, by rw [Late.prepare, hs]⟩
  | .crop s y0 y1 x0 x1 c, h => by
    obtain ⟨s', hs⟩ := prepare_total s h
    exact ⟨_, by rw [Late.prepare, hs]⟩
  | .overview s k d, h => by
    obtain ⟨s', hs⟩ := prepare_total s h
    exact ⟨_, by rw [Late.prepare, hs]⟩
  | .dequant s q d, h => by
    obtain ⟨s', hs⟩ := prepare_total s h
    exact ⟨_, by rw [Late.prepare, hs]⟩
theorem prepareL_total {gdal : Bool} {disk : Disk} : ∀ (ps : List Late),
    (∀ l ∈ loadsL ps, ∃ l', loadMetadata gdal disk l = .ok l') → ∃ ps', Late.prepareL gdal disk ps = .ok ps'
  | [], _ => ⟨[], by rw [Late.prepareL]⟩
  | p :: ps, h => by
    obtain ⟨p', hp⟩ := prepare_total p (fun l hl => h l (by rw [loadsL, List.mem_append]; exact .inl hl))
    obtain ⟨ps', hq⟩ := prepareL_total ps (fun l hl => h l (by rw [loadsL, List.mem_append]; exact .inr hl))
    exact ⟨p' :: ps', by rw [Late.prepareL, hp, hq]⟩
end

mutual
theorem prepare_loads {gdal : Bool} {disk : Disk} : ∀ (n : Late) {n' : Late}, n.prepare gdal disk = .ok n' →
    List.Forall₂ (fun l l' => loadMetadata gdal disk l = .ok l') (loads n) (loads n')
  | .load l, n', h => by
    rw [Late.prepare] at h
    split at h
    · cases h
    · rename_i l' hl
      cases h
      exact .cons hl .nil
  | .concat ps d c, n', h => by
    rw [Late.prepare] at h
    split at h
    · cases h
    · rename_i hl
      cases h
      exact prepareL_loads ps hl
  | .warp s tf d a, n', h => by
    rw [Late.prepare] at h
    split at h
    · cases h
    · rename_i hl
      cases h
      simpa only [loads] using prepare_loads s hl
  | .crop s y0 y1 x0 x1 c, n', h => by
    rw [Late.prepare] at h
    split at h
    · cases h
    · rename_i hl
      cases h
      simpa only [loads] using prepare_loads s hl
  | .overview s k d, n', h => by
    rw [Late.prepare] at h
    split at h
    · cases h
    · rename_i hl
      cases h
      simpa only [loads] using prepare_loads s hl
  | .dequant s q d, n', h => by
    rw [Late.prepare] at h
    split at h
    · cases h
    · rename_i hl
      cases h
      simpa only [loads] using prepare_loads s hl
theorem prepareL_loads {gdal : Bool} {disk : Disk} : ∀ (ps : List Late) {ps' : List Late},
    Late.prepareL gdal disk ps = .ok ps' →
    List.Forall₂ (fun l l' => loadMetadata gdal disk l = .ok l') (loadsL ps) (loadsL ps')
  | [], ps', h => by
    rw [Late.prepareL] at h
    cases h
    exact .nil
  | p :: ps, ps', h => by
    rw [Late.prepareL] at h
    split at h
    · cases h
    · rename_i h1
      split at h
      · cases h
      · rename_i h2
        cases h
        exact List.rel_append (prepare_loads p h1) (prepareL_loads ps h2)
end

/-- What is needed to read the metadata of a file: all of it was given, or the file exists and, without GDAL,
`nodata_method` is not `auto` (or the file was opened already). -/
def Readable (gdal : Bool) (disk : Disk) (l : Load) : Prop :=
  Load.Complete l ∨ (disk l.id ≠ none ∧ (gdal = true ∨ l.auto = false ∨ l.opened = true))

theorem loadMetadata_iff (gdal : Bool) (disk : Disk) (l : Load) :
    (∃ l', loadMetadata gdal disk l = .ok l') ↔ Readable gdal disk l := by
  unfold Readable
  rw [← skips_iff, loadMetadata]
  cases l.skips <;> cases gdal <;> cases l.auto <;> cases l.opened <;> cases disk l.id <;> simp

/-- C53: `prepare` succeeds exactly if the metadata of every file of the image can be read; nothing is asked
about the operations in between.  It reads every file, and only the files. -/
theorem C53_succeeds (gdal : Bool) (disk : Disk) (n : Late) :
    ((∃ n', n.prepare gdal disk = .ok n') ↔ ∀ l ∈ loads n, Readable gdal disk l) ∧
    ∀ n', n.prepare gdal disk = .ok n' →
      List.Forall₂ (fun l l' => loadMetadata gdal disk l = .ok l') (loads n) (loads n') := by
  refine ⟨⟨?_, fun h => prepare_total n fun l hl => (loadMetadata_iff gdal disk l).2 (h l hl)⟩,
    fun n' h => prepare_loads n h⟩
  rintro ⟨n', h⟩ l hl
  obtain ⟨i, hi, rfl⟩ := List.getElem_of_mem hl
  have h2 := prepare_loads n h
  exact (loadMetadata_iff gdal disk _).1 ⟨_, List.Forall₂.get h2 hi (by rw [← h2.length_eq]; exact hi)⟩

/-- Without GDAL, `nodata_method='auto'` needs a file that was opened before. -/
example : Readable false (fun _ => some ⟨6, 4, 3, 0⟩) ⟨0, none, none, none, none, true, true⟩ ∧
    ¬ Readable false (fun _ => some ⟨6, 4, 3, 0⟩) (mkLoad 0 none none none true) := by
  refine ⟨.inr ⟨by simp, .inr (.inr rfl)⟩, ?_⟩
  rintro (⟨⟨w, h, e⟩, _⟩ | ⟨_, e⟩)
  · cases e
  · rcases e with e | e | e <;> cases e

/-! ### operations before `prepare` -/

/-- A prepared file as an image of known size. -/
def Load.leaf (l : Load) : Option Leaf :=
  match l.dsize, l.nchan with
  | some (some w, some h), some c => some ⟨l.id, (w, h), c, l.names, l.overviews, false⟩
  | _, _ => none

mutual
/-- The program, run with every file prepared before it is used. -/
def ready (gdal : Bool) (disk : Disk) : Plan → Py Node
  | .file l =>
    match loadMetadata gdal disk l with
    | .error e => .error e
    | .ok l' =>
      match Load.leaf l' with
      | none => .error .generic
      | some k => .ok (.leaf k)
  | .concat ps =>
    match readyL gdal disk ps with
    | .error e => .error e
    | .ok ps => mkConcat ps
  | .warp p tf d a =>
    match ready gdal disk p with
    | .error e => .error e
    | .ok s => .ok (mkWarp s tf d a)
  | .crop p sl c =>
    match ready gdal disk p with
    | .error e => .error e
    | .ok s => mkCrop s sl c
  | .overview p k =>
    match ready gdal disk p with
    | .error e => .error e
    | .ok s => .ok (mkOverview s k)
  | .dequant p q =>
    match ready gdal disk p with
    | .error e => .error e
    | .ok s => .ok (mkDequant s q)
def readyL (gdal : Bool) (disk : Disk) : List Plan → Py (List Node)
  | [] => .ok []
  | p :: ps =>
    match ready gdal disk p with
    | .error e => .error e
    | .ok p =>
      match readyL gdal disk ps with
      | .error e => .error e
      | .ok ps => .ok (p :: ps)
end

mutual
/-- `Depicts n m`: the image `n`, all of whose metadata is known, is the image `m`: the same operations with the same
arguments and the same announced sizes and numbers of channels over the same files. -/
def Depicts : Late → Node → Prop
  | .load l, .leaf k => Load.leaf l = some k
  | .concat ps d c, .concat qs d' => d = Late.full d' ∧ c = some (Node.nchans qs) ∧ DepictsL ps qs
  | .warp s tf d a, .warp s' tf' d' a' => tf = tf' ∧ d = d' ∧ a = a' ∧ Depicts s s'
  | .crop s y0 y1 x0 x1 c, .crop s' y0' y1' x0' x1' c' =>
    (y0 = y0' ∧ y1 = y1' ∧ x0 = x0' ∧ x1 = x1' ∧ c = c') ∧ Depicts s s'
  | .overview s k d, .overview s' k' d' => k = k' ∧ d = d' ∧ Depicts s s'
  | .dequant s q d, .dequant s' q' d' => q = q' ∧ (Late.dequant s q d).dsize = Late.full d' ∧ Depicts s s'
  | _, _ => False
def DepictsL : List Late → List Node → Prop
  | [], [] => True
  | p :: ps, q :: qs => Depicts p q ∧ DepictsL ps qs
  | _, _ => False
end

mutual
/-- No image has a half known size, and the sizes and numbers of channels of concats are known. -/
def Whole : Late → Prop
  | .load l => l.dsize = none ∨ ∃ w h, l.dsize = some (some w, some h)
  | .concat ps d c => (∃ w h, d = some (some w, some h)) ∧ (∃ k, c = some k) ∧ WholeL ps
  | .warp s _ _ _ => Whole s
  | .crop s _ _ _ _ _ => Whole s
  | .overview s _ _ => Whole s
  | .dequant s _ d => (d = none ∨ ∃ w h, d = some (some w, some h)) ∧ Whole s
def WholeL : List Late → Prop
  | [] => True
  | p :: ps => Whole p ∧ WholeL ps
end

mutual
/-- What an image of known metadata announces. -/
theorem depicts_meta : ∀ (n : Late) (m : Node), Depicts n m →
    n.dsize = Late.full m.dsize ∧ n.nchan = some m.nchan ∧ n.names = m.channels
  | .load l, m, h => by
    cases m with
    | leaf k =>
      rw [Depicts, Load.leaf] at h
      split at h
      · rename_i w hh c e1 e2
        cases h
        exact ⟨e1, e2, rfl⟩
      · cases h
    | _ => simp only [Depicts] at h
  | .concat ps d c, m, h => by
    cases m with
    | concat qs d' =>
      rw [Depicts] at h
      obtain ⟨h1, h2, h3⟩ := h
      exact ⟨h1, h2, depictsL_names ps qs h3⟩
    | _ => simp only [Depicts] at h
  | .warp s tf d a, m, h => by
    cases m with
    | warp s' tf' d' a' =>
      rw [Depicts] at h
      obtain ⟨_, h2, _, h4⟩ := h
      have := depicts_meta s s' h4
      exact ⟨by rw [h2]; rfl, this.2⟩
    | _ => simp only [Depicts] at h
  | .crop s y0 y1 x0 x1 c, m, h => by
    cases m with
    | crop s' y0' y1' x0' x1' c' =>
      rw [Depicts] at h
      obtain ⟨⟨rfl, rfl, rfl, rfl, rfl⟩, h4⟩ := h
      obtain ⟨_, h5, h6⟩ := depicts_meta s s' h4
      refine ⟨rfl, ?_, ?_⟩
      · cases c with
        | none => exact h5
        | some c => rfl
      · cases c with
        | none => exact h6
        | some c => show (s.names).map _ = _; rw [h6]; rfl
    | _ => simp only [Depicts] at h
  | .overview s k d, m, h => by
    cases m with
    | overview s' k' d' =>
      rw [Depicts] at h
      obtain ⟨_, h2, h4⟩ := h
      have := depicts_meta s s' h4
      exact ⟨by rw [h2]; rfl, this.2⟩
    | _ => simp only [Depicts] at h
  | .dequant s q d, m, h => by
    cases m with
    | dequant s' q' d' =>
      rw [Depicts] at h
      obtain ⟨_, h2, h4⟩ := h
      have := depicts_meta s s' h4
      exact ⟨h2, this.2⟩
    | _ => simp only [Depicts] at h
theorem depictsL_names : ∀ (ps : List Late) (qs : List Node), DepictsL ps qs →
    Late.namesL ps = Node.channelsL qs
  | [], [], _ => rfl
  | p :: ps, q :: qs, h => by
    rw [DepictsL] at h
    rw [Late.namesL, Node.channelsL, (depicts_meta p q h.1).2.2, depictsL_names ps qs h.2]
    cases q.channels <;> cases Node.channelsL qs <;> rfl
  | [], _ :: _, h => by simp only [DepictsL] at h
  | _ :: _, [], h => by simp only [DepictsL] at h
end

theorem whole_dsize : ∀ (n : Late), Whole n → n.dsize = none ∨ ∃ d, n.dsize = Late.full d
  | .load l, h => h.imp id (fun ⟨w, h, e⟩ => ⟨(w, h), e⟩)
  | .concat ps d c, h => by
    rw [Whole] at h
    obtain ⟨⟨w, hh, e⟩, _⟩ := h
    exact .inr ⟨(w, hh), e⟩
  | .warp s tf d a, _ => .inr ⟨d, rfl⟩
  | .crop s y0 y1 x0 x1 c, _ => .inr ⟨_, rfl⟩
  | .overview s k d, _ => .inr ⟨d, rfl⟩
  | .dequant s q none, h => by
    rw [Whole] at h
    exact whole_dsize s h.2
  | .dequant s q (some d), h => by
    rw [Whole] at h
    rcases h.1 with h | ⟨w, hh, e⟩
    · cases h
    · exact .inr ⟨(w, hh), e⟩

mutual
/-- What is known stays. -/
theorem prepare_keep {gdal : Bool} {disk : Disk} : ∀ (n : Late) {n' : Late}, n.prepare gdal disk = .ok n' →
    (∀ d, n.dsize = Late.full d → n'.dsize = Late.full d) ∧ (∀ c, n.nchan = some c → n'.nchan = some c) ∧
      n'.names = n.names
  | .load l, n', h => by
    rw [Late.prepare] at h
    split at h
    · cases h
    · rename_i l' hl
      cases h
      obtain ⟨_, _, h3, _, h5, h6, _⟩ := C53_metadata hl
      exact ⟨fun d e => (h5 d.1 d.2 e).trans e, fun c e => (h6 c e).trans e, h3⟩
  | .concat ps d c, n', h => by
    rw [Late.prepare] at h
    split at h
    · cases h
    · rename_i ps' hp
      cases h
      exact ⟨fun _ e => e, fun _ e => e, prepareL_keep ps hp⟩
  | .warp s tf d a, n', h => by
    rw [Late.prepare] at h
    split at h
    · cases h
    · rename_i s' hs
      cases h
      exact ⟨fun _ e => e, (prepare_keep s hs).2⟩
  | .crop s y0 y1 x0 x1 c, n', h => by
    rw [Late.prepare] at h
    split at h
    · cases h
    · rename_i s' hs
      cases h
      obtain ⟨_, h2, h3⟩ := prepare_keep s hs
      refine ⟨fun _ e => e, ?_, ?_⟩
      · cases c with
        | none => exact h2
        | some c => exact fun _ e => e
      · cases c with
        | none => exact h3
        | some c => show (s'.names).map _ = (s.names).map _; rw [h3]
  | .overview s k d, n', h => by
    rw [Late.prepare] at h
    split at h
    · cases h
    · rename_i s' hs
      cases h
      exact ⟨fun _ e => e, (prepare_keep s hs).2⟩
  | .dequant s q d, n', h => by
    rw [Late.prepare] at h
    split at h
    · cases h
    · rename_i s' hs
      cases h
      refine ⟨?_, (prepare_keep s hs).2⟩
      cases d with
      | none => exact (prepare_keep s hs).1
      | some d => exact fun _ e => e
theorem prepareL_keep {gdal : Bool} {disk : Disk} : ∀ (ps : List Late) {ps' : List Late},
    Late.prepareL gdal disk ps = .ok ps' → Late.namesL ps' = Late.namesL ps
  | [], ps', h => by
    rw [Late.prepareL] at h
    cases h
    rfl
  | p :: ps, ps', h => by
    rw [Late.prepareL] at h
    split at h
    · cases h
    · rename_i p' hp
      split at h
      · cases h
      · rename_i qs hq
        cases h
        rw [Late.namesL, Late.namesL, (prepare_keep p hp).2.2, prepareL_keep ps hq]
end

theorem full_inj {d e : Int × Int} (h : Late.full d = Late.full e) : d = e := by
  simp only [Late.full, Option.some.injEq, Prod.mk.injEq] at h
  exact Prod.ext h.1 h.2

theorem known_full (d : Int × Int) : Dim.known (Late.full d) = some d := rfl

mutual
theorem late_ready {gdal : Bool} {disk : Disk} : ∀ (p : Plan) {n n' : Late}, p.late = .ok n → Whole n →
    n.prepare gdal disk = .ok n' → ∃ m, ready gdal disk p = .ok m ∧ Depicts n' m
  | .file l, n, n', h, _, hp => by
    rw [Plan.late] at h
    cases h
    rw [Late.prepare] at hp
    split at hp
    · cases hp
    · rename_i l' hl
      cases hp
      obtain ⟨⟨w, hh, e⟩, ⟨c, e'⟩, _⟩ := (C53_metadata hl).1
      have hk : Load.leaf l' = some ⟨l'.id, (w, hh), c, l'.names, l'.overviews, false⟩ := by
        rw [Load.leaf, e, e']
      exact ⟨.leaf _, by rw [ready, hl]; simp only [hk], hk⟩
  | .concat ps, n, n', h, hw, hp => by
    rw [Plan.late] at h
    split at h
    · cases h
    · rename_i ns hn
      cases ns with
      | nil => cases h
      | cons a as =>
        rw [Late.mkConcat] at h
        split at h
        · rename_i hs
          cases h
          rw [Whole] at hw
          obtain ⟨⟨w, hh, ed⟩, ⟨c, ec⟩, hws⟩ := hw
          rw [Late.prepare] at hp
          split at hp
          · cases hp
          · rename_i ns' hns
            cases hp
            have hd : ∀ q ∈ a :: as, q.dsize = Late.full (w, hh) := by
              intro q hq
              rcases List.mem_cons.1 hq with rfl | hq
              · exact ed
              · exact (of_decide_eq_true (List.all_eq_true.1 hs q hq)).trans ed
            obtain ⟨ms, h1, h2, h3, h4⟩ := lateL_ready ps hn hws hns
            have h3 := h3 (w, hh) hd
            have h4 := h4 c ec
            rw [ed, ec]
            cases ms with
            | nil =>
              rw [Late.prepareL] at hns
              split at hns
              · cases hns
              · split at hns
                · cases hns
                · cases hns
                  simp only [DepictsL] at h2
            | cons m ms =>
              have hm := h3 m (List.mem_cons_self ..)
              refine ⟨.concat (m :: ms) m.dsize, ?_, ?_⟩
              · rw [ready, h1]
                show mkConcat (m :: ms) = _
                rw [mkConcat, if_pos]
                rw [List.all_eq_true]
                intro q hq
                exact decide_eq_true ((h3 q (List.mem_cons_of_mem _ hq)).trans hm.symm)
              · rw [Depicts]
                exact ⟨by rw [hm]; rfl, by rw [h4], h2⟩
        · cases h
  | .warp p tf d a, n, n', h, hw, hp => by
    rw [Plan.late] at h
    split at h
    · cases h
    · rename_i s hs
      unfold Late.mkWarp at h
      have key : ∀ x, n = .warp s tf x a → (∀ s' : Late, ∀ m : Node, s.prepare gdal disk = .ok s' → Depicts s' m →
          mkWarp m tf d a = .warp m tf x a) →
          ∃ m, ready gdal disk (.warp p tf d a) = .ok m ∧ Depicts n' m := by
        intro x e hx
        subst e
        rw [Late.prepare] at hp
        split at hp
        · cases hp
        · rename_i s' hs'
          cases hp
          obtain ⟨m, h1, h2⟩ := late_ready p hs hw hs'
          refine ⟨_, by rw [ready, h1], ?_⟩
          rw [hx s' m hs' h2, Depicts]
          exact ⟨rfl, rfl, rfl, h2⟩
      cases d with
      | some d =>
        cases h
        exact key d rfl (fun _ _ _ _ => rfl)
      | none =>
        cases hx : Dim.known s.dsize with
        | none => simp only [hx] at h; cases h
        | some x =>
          simp only [hx] at h
          refine key _ (Except.ok.inj h).symm (fun s' m hs' hm => ?_)
          have e1 := (prepare_keep s hs').1 x (known_pair.1 hx)
          have e2 := (depicts_meta s' m hm).1
          rw [full_inj (e1.symm.trans e2)]
          rfl
  | .crop p sl c, n, n', h, hw, hp => by
    rw [Plan.late] at h
    split at h
    · cases h
    · rename_i s hs
      rw [Late.mkCrop] at h
      split at h
      · cases h
      · rename_i w hh hk
        split at h
        · cases h
        · rename_i u hcc
          have key : ∀ y0 y1 x0 x1, n = .crop s y0 y1 x0 x1 c → (∀ m : Node, m.dsize = (w, hh) →
              chanCheck m c = .ok () → mkCrop m sl c = .ok (.crop m y0 y1 x0 x1 c)) →
              ∃ m, ready gdal disk (.crop p sl c) = .ok m ∧ Depicts n' m := by
            intro y0 y1 x0 x1 e hx
            subst e
            rw [Late.prepare] at hp
            split at hp
            · cases hp
            · rename_i s' hs'
              cases hp
              obtain ⟨m, h1, h2⟩ := late_ready p hs hw hs'
              obtain ⟨k1, _, k3⟩ := prepare_keep s hs'
              obtain ⟨e1, _, e3⟩ := depicts_meta s' m h2
              have ed : m.dsize = (w, hh) := full_inj (e1.symm.trans (k1 (w, hh) (known_pair.1 hk)))
              have ec : chanCheck m c = .ok () := by
                have : chanCheck m c = Late.chanCheck s c := by
                  unfold chanCheck Late.chanCheck
                  rw [← e3, k3]
                  cases c <;> cases s.names <;> rfl
                exact this.trans hcc
              refine ⟨_, by rw [ready, h1]; exact hx m ed ec, ?_⟩
              rw [Depicts]
              exact ⟨⟨rfl, rfl, rfl, rfl, rfl⟩, h2⟩
          cases sl with
          | none =>
            cases h
            refine key _ _ _ _ rfl (fun m ed ec => ?_)
            rw [mkCrop, ec]
            simp only [ed]
          | some sl =>
            obtain ⟨ysl, xsl⟩ := sl
            cases h
            refine key _ _ _ _ rfl (fun m ed ec => ?_)
            rw [mkCrop, ec]
            simp only [ed]
  | .overview p k, n, n', h, hw, hp => by
    rw [Plan.late] at h
    split at h
    · cases h
    · rename_i s hs
      rw [Late.mkOverview] at h
      split at h
      · cases h
      · rename_i w hh hk
        cases h
        rw [Late.prepare] at hp
        split at hp
        · cases hp
        · rename_i s' hs'
          cases hp
          obtain ⟨m, h1, h2⟩ := late_ready p hs hw hs'
          obtain ⟨k1, _, k3⟩ := prepare_keep s hs'
          obtain ⟨e1, _, e3⟩ := depicts_meta s' m h2
          have ed : m.dsize = (w, hh) := full_inj (e1.symm.trans (k1 (w, hh) (known_pair.1 hk)))
          refine ⟨_, by rw [ready, h1], ?_⟩
          rw [mkOverview, Depicts, ed]
          exact ⟨rfl, rfl, h2⟩
  | .dequant p q, n, n', h, hw, hp => by
    rw [Plan.late] at h
    split at h
    · cases h
    · rename_i s hs
      cases h
      rw [Late.mkDequant, Whole] at hw
      rw [Late.mkDequant, Late.prepare] at hp
      split at hp
      · cases hp
      · rename_i s' hs'
        cases hp
        obtain ⟨m, h1, h2⟩ := late_ready p hs hw.2 hs'
        obtain ⟨k1, _, k3⟩ := prepare_keep s hs'
        obtain ⟨e1, _, e3⟩ := depicts_meta s' m h2
        refine ⟨_, by rw [ready, h1], ?_⟩
        rw [mkDequant, Depicts]
        refine ⟨rfl, ?_, h2⟩
        rcases whole_dsize s hw.2 with e | ⟨d, e⟩
        · rw [e]; exact e1
        · rw [e]
          show Late.full d = _
          rw [← e1, k1 d e]
theorem lateL_ready {gdal : Bool} {disk : Disk} : ∀ (ps : List Plan) {ns ns' : List Late},
    Plan.lateL ps = .ok ns → WholeL ns → Late.prepareL gdal disk ns = .ok ns' →
    ∃ ms, readyL gdal disk ps = .ok ms ∧ DepictsL ns' ms ∧
      (∀ d, (∀ n ∈ ns, n.dsize = Late.full d) → ∀ m ∈ ms, m.dsize = d) ∧
      ∀ c, Late.sumChans ns = some c → Node.nchans ms = c
  | [], ns, ns', h, _, hp => by
    rw [Plan.lateL] at h
    cases h
    rw [Late.prepareL] at hp
    cases hp
    refine ⟨[], by rw [readyL], by rw [DepictsL]; trivial, ?_, ?_⟩
    · intro d _ m hm
      cases hm
    · intro c hc
      rw [Late.sumChans] at hc
      cases hc
      rfl
  | p :: ps, ns, ns', h, hw, hp => by
    rw [Plan.lateL] at h
    split at h
    · cases h
    · rename_i a ha
      split at h
      · cases h
      · rename_i as has
        cases h
        rw [WholeL] at hw
        rw [Late.prepareL] at hp
        split at hp
        · cases hp
        · rename_i a' ha'
          split at hp
          · cases hp
          · rename_i as' has'
            cases hp
            obtain ⟨m, h1, h2⟩ := late_ready p ha hw.1 ha'
            obtain ⟨ms, g1, g2, g3, g4⟩ := lateL_ready ps has hw.2 has'
            obtain ⟨k1, k2, _⟩ := prepare_keep a ha'
            obtain ⟨e1, e2, _⟩ := depicts_meta a' m h2
            refine ⟨m :: ms, by rw [readyL, h1, g1], by rw [DepictsL]; exact ⟨h2, g2⟩, ?_, ?_⟩
            · intro d hd q hq
              rcases List.mem_cons.1 hq with rfl | hq
              · exact full_inj (e1.symm.trans (k1 d (hd a (List.mem_cons_self ..))))
              · exact g3 d (fun x hx => hd x (List.mem_cons_of_mem _ hx)) q hq
            · intro c hc
              rw [Late.sumChans] at hc
              split at hc
              · rename_i x y hx hy
                cases hc
                have := e2.symm.trans (k2 x hx)
                rw [Node.nchans, g4 y hy, Option.some.inj this]
              · cases hc
end

/-- C53: a program that runs on files that are not prepared yet, and whose result is then prepared, gives the
image that the program gives if every file is prepared first.  Missing: sizes that were given half, and concats
of parts whose size or number of channels is not known. -/
theorem C53_late_partial {gdal : Bool} {disk : Disk} (p : Plan) {n n' : Late} (h : p.late = .ok n) (hw : Whole n)
    (hp : n.prepare gdal disk = .ok n') :
    ∃ m, ready gdal disk p = .ok m ∧ Depicts n' m ∧
      n'.dsize = some (some m.dsize.1, some m.dsize.2) ∧ n'.nchan = some m.nchan ∧ n'.names = m.channels := by
  obtain ⟨m, h1, h2⟩ := late_ready p h hw hp
  obtain ⟨h3, h4, h5⟩ := depicts_meta n' m h2
  exact ⟨m, h1, h2, h3, h4, h5⟩

/-- A file of which nothing is known, dequantized, warped to a given size and cropped. -/
def latePlan : Plan :=
  .crop (.warp (.dequant (.file (mkLoad 7 none none none false)) ⟨0, 1, 0, 255, none⟩) (.scale 2) (some (8, 8))
    .default) (ints 1 5 2 6) none

/-- The files of the examples: `7` is six by four with three channels, `8` is two by two. -/
def someDisk : Disk := fun k => if k = 7 then some ⟨6, 4, 3, 1⟩ else if k = 8 then some ⟨2, 2, 1, 0⟩ else none

/-- The hypotheses of `C53_late_partial` on a file of which nothing is known. -/
example : ∃ n n', latePlan.late = .ok n ∧ Whole n ∧ n.nchan = none ∧ n.prepare true someDisk = .ok n' ∧
    n'.dsize = some (some 4, some 4) ∧ n'.nchan = some 3 ∧ ∃ m, ready true someDisk latePlan = .ok m ∧ m.dsize = (4, 4) :=
  ⟨_, _, rfl, ⟨.inl rfl, .inl rfl⟩, rfl, rfl, rfl, rfl, _, rfl, rfl⟩

/-- C53: what can be done with an image whose width or height is not known.  Crops, channel selections and overviews raise
`AssertionError`, warps without a size raise `TypeError`, and warps to a given size and dequantizations succeed.  With a
known size nothing raises but selecting a channel that does not exist (`IndexError`). -/
theorem C53_unknown_size (p : Plan) {s : Late} (h : p.late = .ok s) :
    ((∀ w h' : Int, s.dsize ≠ some (some w, some h')) →
      (∀ sl c, (Plan.crop p sl c).late = .error .assertionError) ∧
      (∀ k, (Plan.overview p k).late = .error .assertionError) ∧
      (∀ tf a, (Plan.warp p tf none a).late = .error .typeError) ∧
      (∀ tf d a, ∃ n, (Plan.warp p tf (some d) a).late = .ok n ∧ n.dsize = some (some d.1, some d.2)) ∧
      ∀ q, ∃ n, (Plan.dequant p q).late = .ok n ∧ n.dsize = s.dsize) ∧
    ∀ w h' : Int, s.dsize = some (some w, some h') →
      (∀ sl c, (∃ n, (Plan.crop p sl c).late = .ok n) ∨ (Plan.crop p sl c).late = .error .indexError ∧
        ∃ l names, c = some l ∧ s.names = some names ∧ ∃ i ∈ l, names.length ≤ i) ∧
      (∀ k, ∃ n, (Plan.overview p k).late = .ok n) ∧ ∀ tf d a, ∃ n, (Plan.warp p tf d a).late = .ok n := by
  refine ⟨fun hu => ?_, fun w h' hd => ?_⟩
  · have hk : Dim.known s.dsize = none := by
      match hd : s.dsize with
      | none => rfl
      | some (none, _) => rfl
      | some (some _, none) => rfl
      | some (some w, some h') => exact absurd hd (hu w h')
    refine ⟨fun sl c => ?_, fun k => ?_, fun tf a => ?_, fun tf d a => ?_, fun q => ?_⟩
    · simp only [Plan.late, h, Late.mkCrop, hk]
    · simp only [Plan.late, h, Late.mkOverview, hk]
    · simp only [Plan.late, h, Late.mkWarp, hk]
    · exact ⟨.warp s tf d a, by simp only [Plan.late, h, Late.mkWarp], rfl⟩
    · exact ⟨Late.mkDequant s q, by simp only [Plan.late, h], by simp only [Late.mkDequant, Late.dsize]; cases s.dsize <;> rfl⟩
  · have hk : Dim.known s.dsize = some (w, h') := by rw [hd]; rfl
    refine ⟨fun sl c => ?_, fun k => ?_, fun tf d a => ?_⟩
    · simp only [Plan.late, h, Late.mkCrop, hk]
      have hcases : Late.chanCheck s c = .ok () ∨ Late.chanCheck s c = .error .indexError ∧
          ∃ l names, c = some l ∧ s.names = some names ∧ ∃ i ∈ l, names.length ≤ i := by
        unfold Late.chanCheck
        cases c with
        | none => exact .inl rfl
        | some l =>
          cases hn : s.names with
          | none => exact .inl rfl
          | some names =>
            simp only
            split
            · exact .inl rfl
            · rename_i hall
              refine .inr ⟨rfl, l, names, rfl, rfl, ?_⟩
              simpa using hall
      rcases hcases with e | ⟨e, hx⟩
      · rw [e]
        left
        cases sl with
        | none => exact ⟨_, rfl⟩
        | some sl => exact ⟨_, rfl⟩
      · rw [e]
        exact .inr ⟨rfl, hx⟩
    · exact ⟨.overview s k (ovSize k w, ovSize k h'), by simp only [Plan.late, h, Late.mkOverview, hk]⟩
    · cases d with
      | none => exact ⟨.warp s tf (autoDsize (some tf) (w, h')) a, by simp only [Plan.late, h, Late.mkWarp, hk]⟩
      | some d => exact ⟨.warp s tf d a, by simp only [Plan.late, h, Late.mkWarp]⟩

/-- A file of which only the width was given, and one of known size with too large an index. -/
example : (∃ s, (Plan.file (mkLoad 7 none (some (some 6, none)) none false)).late = .ok s ∧
      ∀ w h' : Int, s.dsize ≠ some (some w, some h')) ∧
    (Plan.crop (.file (mkLoad 7 (some [p! "r"]) (some (some 6, some 4)) none false)) none (some [1])).late =
      .error .indexError :=
  ⟨⟨_, rfl, by rintro w h' ⟨⟩⟩, rfl⟩

/-- C53, what fails for half known sizes: only the width of the file was given.  After `prepare` the
dequantized image still does not know its height, although the file under it does. -/
theorem C53_half_violated :
    ∃ (p : Plan) (n n' : Late) (m : Node), p.late = .ok n ∧ n.prepare true someDisk = .ok n' ∧
      ready true someDisk p = .ok m ∧ m.dsize = (6, 4) ∧ n'.dsize = some (some 6, none) ∧
      ∀ l ∈ loads n', l.dsize = some (some 6, some 4) :=
  ⟨.dequant (.file (mkLoad 7 none (some (some 6, none)) none false)) ⟨0, 1, 0, 255, none⟩, _, _, _, rfl, rfl, rfl,
    rfl, rfl, by simp [loads]; rfl⟩

/-- C53, what fails for concats: the size and the number of channels of a concat of unprepared files stay
unknown after `prepare`. -/
theorem C53_concat_violated :
    ∃ (p : Plan) (n n' : Late) (m : Node), p.late = .ok n ∧ n.prepare true someDisk = .ok n' ∧
      ready true someDisk p = .ok m ∧ m.dsize = (6, 4) ∧ m.nchan = 6 ∧ n'.dsize = none ∧ n'.nchan = none :=
  ⟨.concat [.file (mkLoad 7 none none none false), .file (mkLoad 7 none none none false)], _, _, _, rfl, rfl, rfl,
    rfl, rfl, rfl, rfl⟩

/-- C53, what fails for concats: files of different sizes can be concatenated before they are prepared, and
two files of the same size cannot if the size of only one of them was given. -/
theorem C53_concat_sizes_violated :
    (∃ (p : Plan) (n n' : Late), p.late = .ok n ∧ n.prepare true someDisk = .ok n' ∧
      ready true someDisk p = .error .coordinateCompat) ∧
    ∃ (p : Plan) (m : Node), p.late = .error .coordinateCompat ∧ ready true someDisk p = .ok m :=
  ⟨⟨.concat [.file (mkLoad 7 none none none false), .file (mkLoad 8 none none none false)], _, _, rfl, rfl, rfl⟩,
    .concat [.file (mkLoad 7 none none none false), .file (mkLoad 7 none (some (some 6, some 4)) none false)], _, rfl,
    rfl⟩

end Verif.Props
