/-
What an operation tree means: for every output channel the leaf channel it comes from, the total affine
transform from the leaf, the dequantizations applied, and the region of the canvas in which it has data.

The region is a set of points of the plane (open boxes; pixel centres are interior points).  Every
operation keeps what is inside its own reported canvas.  Resampling between pixel centres and border
colours are not described.
-/
import Verif.Opt
import Mathlib.Data.List.Forall2
import Mathlib.Tactic.Positivity

namespace Verif
namespace Tree

open Helpers Node

/-- One output channel. -/
structure Chan where
  /-- leaf and channel of the leaf -/
  id : Nat
  ch : Nat
  /-- transform from the leaf to the output -/
  tf : Affine
  /-- dequantizations, the one nearest to the leaf first -/
  qs : List Quantization
  /-- the points that show data of the leaf -/
  dom : ℚ × ℚ → Prop

/-- Inside the canvas. -/
def In (d : Int × Int) (p : ℚ × ℚ) : Prop := 0 < p.1 ∧ p.1 < d.1 ∧ 0 < p.2 ∧ p.2 < d.2

/-- What a point shows, for given images and dequantization. -/
noncomputable def Chan.value {V : Type} (img : Nat → Nat → ℚ × ℚ → V) (deq : Quantization → V → V) (c : Chan)
    (p : ℚ × ℚ) : Option V :=
  open Classical in
  if c.dom p then some (c.qs.foldl (fun v q => deq q v) (img c.id c.ch (c.tf.inv.app p))) else none

/-- A channel of a leaf. -/
def Chan.leaf (l : Leaf) (i : Nat) : Chan := ⟨l.id, i, .id, [], fun p => l.nan = false ∧ In l.dsize p⟩

/-- A channel without data. -/
def Chan.none : Chan := ⟨0, 0, .id, [], fun _ => False⟩

/-- The channel after a geometric operation with transform `m` and canvas `d`. -/
def Chan.map (m : Affine) (d : Int × Int) (c : Chan) : Chan :=
  { c with tf := m * c.tf, dom := fun p => In d p ∧ c.dom (m.inv.app p) }

/-- The channel after a dequantization. -/
def Chan.deq (q : Quantization) (c : Chan) : Chan := { c with qs := c.qs ++ [q] }

mutual
/-- The channels of a tree. -/
def den : Node → List Chan
  | .leaf l => (List.range l.nchan).map (Chan.leaf l)
  | .concat ps _ => denL ps
  | .warp s tf d _ => (den s).map (Chan.map tf d)
  | .crop s y0 y1 x0 x1 c =>
    (match c with | Option.none => den s | some c => pick Chan.none (den s) c).map
      (Chan.map (.trans (-x0) (-y0)) (x1 - x0, y1 - y0))
  | .overview s k d => (den s).map (Chan.map (ovScale k) d)
  | .dequant s q d => (den s).map (fun c => (c.map .id d).deq q)
def denL : List Node → List Chan
  | [] => []
  | p :: ps => den p ++ denL ps
end

/-- The second channel shows everything the first one shows: at every point with data it has data, and
(unless the first channel is entirely empty) the data is from the same leaf channel, through the same
transform, with the same dequantizations. -/
def Chan.Le (c c' : Chan) : Prop :=
  (∀ p, c.dom p → c'.dom p) ∧
  ((∀ p, ¬ c.dom p) ∨ (c'.id = c.id ∧ c'.ch = c.ch ∧ c'.tf = c.tf ∧ c'.qs = c.qs))

theorem Chan.Le.refl (c : Chan) : c.Le c := ⟨fun _ h => h, .inr ⟨rfl, rfl, rfl, rfl⟩⟩

theorem Chan.Le.trans {a b c : Chan} (h1 : a.Le b) (h2 : b.Le c) : a.Le c := by
  refine ⟨fun p h => h2.1 p (h1.1 p h), ?_⟩
  rcases h1.2 with h | ⟨e1, e2, e3, e4⟩
  · exact .inl h
  · rcases h2.2 with h | ⟨f1, f2, f3, f4⟩
    · exact .inl fun p hp => h p (h1.1 p hp)
    · exact .inr ⟨f1.trans e1, f2.trans e2, f3.trans e3, f4.trans e4⟩

/-- What is shown stays, for any images and dequantization. -/
theorem Chan.Le.value {V : Type} {a b : Chan} (h : a.Le b) (img : Nat → Nat → ℚ × ℚ → V)
    (deq : Quantization → V → V) (p : ℚ × ℚ) (v : V) (hv : a.value img deq p = some v) :
    b.value img deq p = some v := by
  unfold Chan.value at hv ⊢
  split at hv
  · rename_i hd
    rw [if_pos (h.1 p hd)]
    rcases h.2 with h | ⟨e1, e2, e3, e4⟩
    · exact absurd hd (h p)
    · rw [e1, e2, e3, e4]; exact hv
  · cases hv

theorem Chan.Le.map {a b : Chan} (h : a.Le b) (m : Affine) (d : Int × Int) :
    (a.map m d).Le (b.map m d) := by
  refine ⟨fun p hp => ⟨hp.1, h.1 _ hp.2⟩, ?_⟩
  rcases h.2 with h | ⟨e1, e2, e3, e4⟩
  · exact .inl fun p hp => h _ hp.2
  · exact .inr ⟨e1, e2, by simp only [Chan.map, e3], e4⟩

theorem Chan.Le.deq {a b : Chan} (h : a.Le b) (q : Quantization) : (a.deq q).Le (b.deq q) := by
  refine ⟨h.1, ?_⟩
  rcases h.2 with h | ⟨e1, e2, e3, e4⟩
  · exact .inl h
  · exact .inr ⟨e1, e2, e3, by simp only [Chan.deq, e4]⟩

/-- Every node is one that the API can build: known channel names have the right number, parts of a
concat have its size, transforms are invertible, slices start at a nonnegative position and
channel indices exist. -/
def Leaf.WF (l : Leaf) : Prop :=
  (∀ ns, l.names = some ns → ns.length = l.nchan) ∧
  (l.nan = true → l.names.isSome ∧ l.overviews = Option.none)

def IdxOk (n : Nat) : Option (List Nat) → Prop
  | Option.none => True
  | some c => ∀ i ∈ c, i < n

mutual
def WF : Node → Prop
  | .leaf l => l.WF
  | .concat ps d => ps ≠ [] ∧ WFL d ps
  | .warp s tf _ _ => WF s ∧ tf.det ≠ 0
  | .crop s y0 _ x0 _ c => WF s ∧ 0 ≤ y0 ∧ 0 ≤ x0 ∧ IdxOk (nchan s) c
  | .overview s _ _ => WF s
  | .dequant s _ _ => WF s
def WFL (d : Int × Int) : List Node → Prop
  | [] => True
  | p :: ps => WF p ∧ p.dsize = d ∧ WFL d ps
end

theorem WFL_iff (d : Int × Int) (ps : List Node) : WFL d ps ↔ ∀ p ∈ ps, WF p ∧ p.dsize = d := by
  induction ps with
  | nil => simp [WFL]
  | cons p ps ih => simp [WFL, ih, and_assoc]

theorem denL_eq (ps : List Node) : denL ps = ps.flatMap den := by
  induction ps with
  | nil => rfl
  | cons p ps ih => simp [denL, ih]

theorem nchans_eq (ps : List Node) : nchans ps = (ps.map nchan).sum := by
  induction ps with
  | nil => rfl
  | cons p ps ih => simp [nchans, ih]

/-! #### lengths -/

mutual
theorem den_length : ∀ n : Node, (den n).length = n.nchan
  | .leaf l => by simp [den, nchan]
  | .concat ps _ => by simpa [den, nchan] using denL_length ps
  | .warp s _ _ _ => by simpa [den, nchan] using den_length s
  | .crop s _ _ _ _ c => by
    cases c with
    | none => simpa [den, nchan] using den_length s
    | some c => simp [den, nchan, pick]
  | .overview s _ _ => by simpa [den, nchan] using den_length s
  | .dequant s _ _ => by simpa [den, nchan] using den_length s
theorem denL_length : ∀ ps : List Node, (denL ps).length = nchans ps
  | [] => rfl
  | p :: ps => by simp [denL, nchans, den_length p, denL_length ps]
end

mutual
theorem channels_length : ∀ (n : Node) (l : List Str), WF n → n.channels = some l → l.length = n.nchan
  | .leaf lf, l, h, e => h.1 l e
  | .concat ps d, l, h, e => channelsL_length ps d l h.2 e
  | .warp s _ _ _, l, h, e => channels_length s l h.1 e
  | .crop s _ _ _ _ c, l, h, e => by
    cases c with
    | none => exact channels_length s l h.1 e
    | some c =>
      simp only [channels, Option.map_eq_some_iff] at e
      obtain ⟨x, _, rfl⟩ := e
      simp [pick, nchan]
  | .overview s _ _, l, h, e => channels_length s l h e
  | .dequant s _ _, l, h, e => channels_length s l h e
theorem channelsL_length : ∀ (ps : List Node) (d : Int × Int) (l : List Str), WFL d ps →
    channelsL ps = some l → l.length = nchans ps
  | [], _, l, _, e => by simp only [channelsL, Option.some.injEq] at e; subst e; rfl
  | p :: ps, d, l, h, e => by
    simp only [channelsL] at e
    split at e
    · rename_i a b e1 e2
      simp only [Option.some.injEq] at e
      subst e
      simp [nchans, channels_length p a h.1 e1, channelsL_length ps d b h.2.2 e2]
    · cases e
end

/-! #### data is inside the canvas -/

mutual
theorem den_in : ∀ (n : Node), WF n → ∀ c ∈ den n, ∀ p, c.dom p → In n.dsize p
  | .leaf l, _, c, hc, p, hp => by
    simp only [den, List.mem_map] at hc
    obtain ⟨i, _, rfl⟩ := hc
    exact hp.2
  | .concat ps d, h, c, hc, p, hp => denL_in ps d h.2 c hc p hp
  | .warp s _ _ _, _, c, hc, p, hp => by
    simp only [den, List.mem_map] at hc
    obtain ⟨i, _, rfl⟩ := hc
    exact hp.1
  | .crop s _ _ _ _ cs, _, c, hc, p, hp => by
    simp only [den, List.mem_map] at hc
    obtain ⟨i, _, rfl⟩ := hc
    simpa [dsize] using hp.1
  | .overview s _ _, _, c, hc, p, hp => by
    simp only [den, List.mem_map] at hc
    obtain ⟨i, _, rfl⟩ := hc
    exact hp.1
  | .dequant s _ _, _, c, hc, p, hp => by
    simp only [den, List.mem_map] at hc
    obtain ⟨i, _, rfl⟩ := hc
    exact hp.1
theorem denL_in : ∀ (ps : List Node) (d : Int × Int), WFL d ps → ∀ c ∈ denL ps, ∀ p, c.dom p → In d p
  | [], _, _, c, hc, _, _ => by simp [denL] at hc
  | q :: ps, d, h, c, hc, p, hp => by
    simp only [denL, List.mem_append] at hc
    rcases hc with hc | hc
    · have := den_in q h.1 c hc p hp
      rwa [h.2.1] at this
    · exact denL_in ps d h.2.2 c hc p hp
end

/-! #### the relation between trees -/

/-- The second tree has the same channels and shows everything the first one shows. -/
structure Sim (n n' : Node) : Prop where
  channels : n'.channels = n.channels
  den : List.Forall₂ Chan.Le (den n) (den n')

theorem Sim.nchan {n n' : Node} (h : Sim n n') : n'.nchan = n.nchan := by
  rw [← den_length, ← den_length, h.den.length_eq]

theorem forall₂_le_refl (l : List Chan) : List.Forall₂ Chan.Le l l :=
  List.forall₂_same.2 fun c _ => .refl c

theorem Sim.refl (n : Node) : Sim n n := ⟨rfl, forall₂_le_refl _⟩

theorem forall₂_le_trans {a b c : List Chan} (h1 : List.Forall₂ Chan.Le a b)
    (h2 : List.Forall₂ Chan.Le b c) : List.Forall₂ Chan.Le a c := by
  induction h1 generalizing c with
  | nil => exact h2
  | cons h _ ih => cases h2 with | cons h' t' => exact .cons (h.trans h') (ih t')

theorem Sim.trans {a b c : Node} (h1 : Sim a b) (h2 : Sim b c) : Sim a c :=
  ⟨h2.channels.trans h1.channels, forall₂_le_trans h1.den h2.den⟩

theorem forall₂_map {l l' : List Chan} {f g : Chan → Chan} (h : List.Forall₂ Chan.Le l l')
    (hfg : ∀ a ∈ l, ∀ b, a.Le b → (f a).Le (g b)) : List.Forall₂ Chan.Le (l.map f) (l'.map g) := by
  induction h with
  | nil => exact .nil
  | cons h _ ih =>
    exact .cons (hfg _ (by simp) _ h) (ih fun a ha b hb => hfg a (by simp [ha]) b hb)

theorem forall₂_map_self {l : List Chan} {f g : Chan → Chan}
    (hfg : ∀ a ∈ l, (f a).Le (g a)) : List.Forall₂ Chan.Le (l.map f) (l.map g) := by
  induction l with
  | nil => exact .nil
  | cons a l ih => exact .cons (hfg _ (by simp)) (ih fun a ha => hfg a (by simp [ha]))

theorem forall₂_getD {l l' : List Chan} (h : List.Forall₂ Chan.Le l l') (i : Nat) :
    (l.getD i Chan.none).Le (l'.getD i Chan.none) := by
  induction h generalizing i with
  | nil => exact .refl _
  | cons h _ ih => cases i with
    | zero => exact h
    | succ i => exact ih i

theorem forall₂_pick {l l' : List Chan} (h : List.Forall₂ Chan.Le l l') (is : List Nat) :
    List.Forall₂ Chan.Le (pick Chan.none l is) (pick Chan.none l' is) := by
  induction is with
  | nil => exact .nil
  | cons i is ih => exact .cons (forall₂_getD h i) ih

theorem Sim.warp {s s' : Node} (h : Sim s s') (tf : Affine) (d : Int × Int) (a b : Algo) :
    Sim (.warp s tf d a) (.warp s' tf d b) :=
  ⟨by simpa [Node.channels] using h.channels,
   by simpa only [Tree.den] using forall₂_map h.den fun a _ b hab => hab.map tf d⟩

theorem Sim.overview {s s' : Node} (h : Sim s s') (k : Int) (d : Int × Int) :
    Sim (.overview s k d) (.overview s' k d) :=
  ⟨by simpa [Node.channels] using h.channels,
   by simpa only [Tree.den] using forall₂_map h.den fun a _ b hab => hab.map _ d⟩

theorem Sim.dequant {s s' : Node} (h : Sim s s') (q : Quantization) (d : Int × Int) :
    Sim (.dequant s q d) (.dequant s' q d) :=
  ⟨by simpa [Node.channels] using h.channels,
   by simpa only [Tree.den] using forall₂_map h.den fun a _ b hab => (hab.map _ d).deq q⟩

theorem Sim.crop {s s' : Node} (h : Sim s s') (y0 y1 x0 x1 : Int) (c : Option (List Nat)) :
    Sim (.crop s y0 y1 x0 x1 c) (.crop s' y0 y1 x0 x1 c) := by
  refine ⟨?_, ?_⟩
  · cases c <;> simp only [Node.channels, h.channels]
  · cases c with
    | none => simpa only [Tree.den] using forall₂_map h.den fun a _ b hab => hab.map _ _
    | some c => simpa only [Tree.den] using forall₂_map (forall₂_pick h.den c) fun a _ b hab => hab.map _ _

theorem Sim.concat {ps qs : List Node} (h : List.Forall₂ Sim ps qs) (d d' : Int × Int) :
    Sim (.concat ps d) (.concat qs d') := by
  suffices H : channelsL qs = channelsL ps ∧ List.Forall₂ Chan.Le (denL ps) (denL qs) by
    exact ⟨H.1, by simpa only [Tree.den] using H.2⟩
  induction h with
  | nil => exact ⟨rfl, .nil⟩
  | cons h _ ih =>
    refine ⟨by simp only [channelsL, h.channels, ih.1], ?_⟩
    simp only [denL]
    exact List.rel_append h.den ih.2

end Tree
end Verif
