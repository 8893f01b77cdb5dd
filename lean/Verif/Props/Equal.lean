/-
C73: equal fused specs are interchangeable.
-/
import Verif.Equal
import Verif.Props.Fused
import Verif.Props.Concise
import Verif.ChanLemmas

namespace Verif.Props
open Verif Verif.Fused

/-- The two operands are equal: the same list of codes, or equal specs. -/
inductive SameOther : Other → Other → Prop
  | codes (l : List Str) : SameOther (.codes l) (.codes l)
  | spec {f g : Fused} (hf : Built f) (hg : Built g) (h : f.eq g = true) : SameOther (.spec f) (.spec g)

theorem eq_asList {f g : Fused} (hf : Built f) (hg : Built g) (h : f.eq g = true) : f.asList = g.asList := by
  rw [asList_eq hf.flagSound, asList_eq hg.flagSound, of_decide_eq_true h]

theorem eq_normalize {f g : Fused} (hf : Built f) (hg : Built g) (h : f.eq g = true) :
    f.normalize = g.normalize := by
  rw [normalize_eq hf.flagSound, normalize_eq hg.flagSound, of_decide_eq_true h]

theorem sizes_flag {f : Fused} (h : FlagSound f) : f.sizes = sizesLoop f.parsed := by
  unfold sizes
  split
  · next hn =>
    have := Chan.sizesLoop_ok (l := f.parsed) (size := fun _ => 1) (fun c hc => by
      rw [codeSize_eq, expandCode_of_not_needs (h hn c hc)]; rfl)
    rw [this]
    simp [List.map_const']
  · rfl

/-- C73: specs that compare equal give the same result (or exception) in every method, as the object and as the
operand, whatever was done with them before. -/
theorem C73_equal_interchangeable {f g : Fused} (hf : Built f) (hg : Built g) (h : f.eq g = true) :
    f.spec = g.spec ∧ f.len = g.len ∧ f.asList = g.asList ∧ f.normalize = g.normalize ∧ f.numel = g.numel ∧
    f.sizes = g.sizes ∧ f.concise = g.concise ∧ f.componentIndices = g.componentIndices ∧
    (∀ i, f.getInt i = g.getInt i) ∧ (∀ is, f.getList is = g.getList is) ∧
    (∀ a b, f.getSlice a b = g.getSlice a b) ∧
    ∀ o o', SameOther o o' → f.difference o = g.difference o' ∧ f.intersection o = g.intersection o' ∧
      f.union o = g.union o' ∧ f.issubset o = g.issubset o' ∧ f.issuperset o = g.issuperset o' := by
  have hp : f.parsed = g.parsed := of_decide_eq_true h
  have ha := eq_asList hf hg h
  have hn := eq_normalize hf hg h
  refine ⟨by unfold Fused.spec; rw [hp], by unfold Fused.len; rw [hp], ha, hn, ?_, ?_,
    by unfold Fused.concise; rw [hn], by unfold Fused.componentIndices; rw [hp],
    fun i => by unfold Fused.getInt; rw [hn], fun is => by unfold Fused.getList; rw [hn],
    fun a b => by unfold Fused.getSlice; rw [hn], ?_⟩
  · rw [(C01_numel_counts_channels hf).1, (C01_numel_counts_channels hg).1, ha]
  · rw [sizes_flag hf.flagSound, sizes_flag hg.flagSound, hp]
  · rintro o o' (l | ⟨hf', hg', h'⟩)
    · refine ⟨?_, ?_, ?_, ?_, ?_⟩
      all_goals (first | unfold Fused.difference | unfold Fused.intersection | unfold Fused.union
                       | unfold Fused.issubset | unfold Fused.issuperset)
      all_goals rw [ha]
    · have ha' := eq_asList hf' hg' h'
      have hp' := of_decide_eq_true h'
      refine ⟨?_, ?_, ?_, ?_, ?_⟩
      · unfold Fused.difference Other.norm; simp only [ha, ha']
      · unfold Fused.intersection Other.normIter; simp only [ha, ha']
      · unfold Fused.union Other.norm; simp only [ha, ha']
      · unfold Fused.issubset; simp only [ha, ha', hp']
      · unfold Fused.issuperset; simp only [ha, ha', hp']

example : let f := parse (p! "r|g|x.2")
    f.eq f.noteNormalized = true ∧ f ≠ f.noteNormalized ∧ Built f ∧ Built f.noteNormalized :=
  ⟨by decide, by decide, .ofStr _, (Built.ofStr _).noted⟩

/-- C73: equality is an equivalence, and calls of `normalize` on the objects do not change it. -/
theorem C73_equivalence (f g h : Fused) :
    f.eq f = true ∧ f.eq g = g.eq f ∧ (f.eq g = true → g.eq h = true → f.eq h = true) ∧
    f.noteNormalized.eq g = f.eq g := by
  refine ⟨by simp [Fused.eq], by simp [Fused.eq, eq_comm], fun a b => ?_, ?_⟩
  · exact decide_eq_true ((of_decide_eq_true a).trans (of_decide_eq_true b))
  · have : f.noteNormalized.parsed = f.parsed := by
      unfold noteNormalized
      split
      · rfl
      · split
        · rfl
        · split <;> rfl
    simp [Fused.eq, this]

/-- C73: the normalized specs are equal exactly when the specs have the same channels in the same order. -/
theorem C73_normalized_decides {f g f' g' : Fused} (hf : f.normalize = .ok f') (hg : g.normalize = .ok g') :
    f'.eq g' = true ↔ f.asList = g.asList := by
  simp [asList, hf, hg, Fused.eq]

example : (parse (p! "rgb|x:2")).normalize = .ok ⟨[p! "r", p! "g", p! "b", p! "x.0", p! "x.1"], true⟩ ∧
    (parse (p! "r|g|b|x.0:2")).normalize = .ok ⟨[p! "r", p! "g", p! "b", p! "x.0", p! "x.1"], true⟩ :=
  ⟨by decide, by decide⟩

/-- C73: two specs, read from texts, are equal exactly when the texts are the same. -/
theorem C73_texts (s t : Str) : (parse s).eq (parse t) = true ↔ s = t := by
  constructor
  · intro h
    have h : (parse s).spec = (parse t).spec := by unfold Fused.spec; rw [of_decide_eq_true h]
    rwa [C05_spec_roundtrip, C05_spec_roundtrip] at h
  · rintro rfl
    simp [Fused.eq]

/-- C73: the length of the normalized spec is its number of channels. -/
theorem C73_length {f f' : Fused} (h : Built f) (hn : f.normalize = .ok f') :
    f.numel = .ok f'.len ∧ f'.numel = .ok f'.len := by
  have h' : Built f' := .normalize h hn
  have hl : f.asList = .ok f'.parsed := by simp [asList, hn]
  refine ⟨by rw [(C01_numel_counts_channels h).1, hl]; rfl, ?_⟩
  rw [(C01_numel_counts_channels h').1, asList_eq h'.flagSound,
    normParts_of_not_needs (asList_needs h.flagSound hl)]
  rfl

/-- C73: specs with the same channels in another spelling are different, and the length of a spec is not the number
of its channels. -/
theorem C73_spelling :
    (parse (p! "rgb")).asList = (parse (p! "r|g|b")).asList ∧
    (parse (p! "rgb")).eq (parse (p! "r|g|b")) = false ∧
    (parse (p! "rgb")).len = 1 ∧ (parse (p! "rgb")).numel = .ok 3 :=
  ⟨by decide, by decide, by decide, by decide⟩

end Verif.Props
