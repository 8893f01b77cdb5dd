/-
Classes of trees for which `optimize` ends: trees whose leaves have no overviews, and trees whose
pyramids are deep enough for all the downscaling above them.
-/
import Verif.Weights
import Verif.SizeRules
import Verif.Halt

namespace Verif
namespace Tree

open Helpers Node

/-! #### the trees -/

mutual
/-- `Calm D L j n`: below `n` every leaf has no overviews and no overviews of it are taken, or all warps
above it are scalings along the axes and it has at least as many overviews as are taken and as all
warps together shrink.  `D` says whether the warps above `n` are scalings along the axes, `L` and `j` are
the levels taken above `n` without and with the warps. -/
def Calm (D : Prop) (L j : Int) : Node → Prop
  | .leaf l => l.overviews = none ∨ (L = 0 ∧ l.overviews = some 0) ∨
      (D ∧ ∀ o, l.overviews = some o → j ≤ o)
  | .concat ps _ => CalmL D L j ps
  | .warp s tf _ _ => Calm (D ∧ Diag tf) L (j + shrink tf) s
  | .crop s _ _ _ _ _ => Calm D L j s
  | .overview s k _ => 0 ≤ k ∧ Calm D (L + k) (j + k) s
  | .dequant s _ _ => Calm D L j s
def CalmL (D : Prop) (L j : Int) : List Node → Prop
  | [] => True
  | p :: ps => Calm D L j p ∧ CalmL D L j ps
end

theorem CalmL_iff {D : Prop} {L j : Int} (ps : List Node) : CalmL D L j ps ↔ ∀ p ∈ ps, Calm D L j p := by
  induction ps with
  | nil => simp [CalmL]
  | cons p ps ih => simp [CalmL, ih]

mutual
theorem Calm.mono : ∀ (n : Node) {D D' : Prop} {L L' j j' : Int}, (D → D') → 0 ≤ L' → L' ≤ L → j' ≤ j →
    Calm D L j n → Calm D' L' j' n
  | .leaf l, _, _, _, _, _, _, hD, h0, hL, hj, h => by
    rw [Calm] at h ⊢
    rcases h with h | ⟨h, e⟩ | ⟨h, e⟩
    · exact .inl h
    · exact .inr (.inl ⟨by omega, e⟩)
    · exact .inr (.inr ⟨hD h, fun o ho => hj.trans (e o ho)⟩)
  | .concat ps _, _, _, _, _, _, _, hD, h0, hL, hj, h => by
    rw [Calm] at h ⊢; exact CalmL.mono ps hD h0 hL hj h
  | .warp s tf _ _, _, _, _, _, _, _, hD, h0, hL, hj, h => by
    rw [Calm] at h ⊢
    exact Calm.mono s (fun h => ⟨hD h.1, h.2⟩) h0 hL (by omega) h
  | .crop s _ _ _ _ _, _, _, _, _, _, _, hD, h0, hL, hj, h => by
    rw [Calm] at h ⊢; exact Calm.mono s hD h0 hL hj h
  | .dequant s _ _, _, _, _, _, _, _, hD, h0, hL, hj, h => by
    rw [Calm] at h ⊢; exact Calm.mono s hD h0 hL hj h
  | .overview s k _, _, _, _, _, _, _, hD, h0, hL, hj, h => by
    rw [Calm] at h ⊢
    exact ⟨h.1, Calm.mono s hD (by have := h.1; omega) (by omega) (by omega) h.2⟩
theorem CalmL.mono : ∀ (ps : List Node) {D D' : Prop} {L L' j j' : Int}, (D → D') → 0 ≤ L' → L' ≤ L →
    j' ≤ j → CalmL D L j ps → CalmL D' L' j' ps
  | [], _, _, _, _, _, _, _, _, _, _, _ => by simp [CalmL]
  | p :: ps, _, _, _, _, _, _, hD, h0, hL, hj, h => by
    rw [CalmL] at h ⊢
    exact ⟨Calm.mono p hD h0 hL hj h.1, CalmL.mono ps hD h0 hL hj h.2⟩
end

/-- The number of overviews of such a tree. -/
theorem Calm.num : ∀ (n : Node) {D : Prop} {L j num : Int}, 0 ≤ L → Calm D L j n →
    n.numOverviews = .ok (some num) → (D ∧ j ≤ num) ∨ (L = 0 ∧ num = 0)
  | .leaf l, _, _, _, _, h0, h, hn => by
    rw [Calm] at h
    simp only [numOverviews, Except.ok.injEq] at hn
    rw [hn] at h
    rcases h with h | ⟨h, e⟩ | ⟨h, e⟩
    · cases h
    · exact .inr ⟨h, Option.some.inj e⟩
    · exact .inl ⟨h, e _ rfl⟩
  | .concat ps _, _, _, _, _, h0, h, hn => by
    cases ps with
    | nil => simp [numOverviews, numOverviewsL] at hn
    | cons p ps =>
      rw [Calm, CalmL] at h
      unfold numOverviews at hn
      split at hn
      · cases hn
      · cases hn
      · rename_i c cs hc
        simp only [Except.ok.injEq] at hn
        split at hn
        · subst hn
          unfold numOverviewsL at hc
          split at hc
          · cases hc
          · rename_i c' hc'
            split at hc
            · cases hc
            · cases hc
              exact Calm.num p h0 h.1 hc'
        · cases hn
  | .warp s tf _ _, _, _, _, _, h0, h, hn => by
    rw [Calm] at h
    rw [numOverviews] at hn
    rcases Calm.num s h0 h hn with ⟨e, f⟩ | e
    · exact .inl ⟨e.1, by omega⟩
    · exact .inr e
  | .crop s _ _ _ _ _, _, _, _, _, h0, h, hn => by
    rw [Calm] at h; rw [numOverviews] at hn; exact Calm.num s h0 h hn
  | .dequant s _ _, _, _, _, _, h0, h, hn => by
    rw [Calm] at h; rw [numOverviews] at hn; exact Calm.num s h0 h hn
  | .overview s k _, _, _, _, _, h0, h, hn => by
    rw [Calm] at h
    unfold numOverviews at hn
    split at hn
    · cases hn
    · cases hn
    · rename_i m hm
      simp only [Except.ok.injEq, Option.some.injEq] at hn
      subst hn
      have := h.1
      rcases Calm.num s (by omega) h.2 hm with ⟨e, f⟩ | ⟨e, f⟩
      · exact .inl ⟨e, by omega⟩
      · exact .inr ⟨by omega, by omega⟩

theorem numOverviewsL_mem {ps : List Node} {cs : List (Option Int)} (h : numOverviewsL ps = .ok cs) :
    ∀ p ∈ ps, ∃ c ∈ cs, p.numOverviews = .ok c := by
  induction ps generalizing cs with
  | nil => intro p hp; simp at hp
  | cons q ps ih =>
    unfold numOverviewsL at h
    split at h
    · cases h
    · rename_i c hc
      split at h
      · cases h
      · rename_i cs' hcs
        cases h
        intro p hp
        rcases List.mem_cons.1 hp with rfl | hp
        · exact ⟨c, by simp, hc⟩
        · obtain ⟨c', h1, h2⟩ := ih hcs p hp
          exact ⟨c', by simp [h1], h2⟩

/-- The parts of a concat with a number of overviews have that number. -/
theorem numOverviews_parts {ps : List Node} {d : Int × Int} {num : Int}
    (h : (Node.concat ps d).numOverviews = .ok (some num)) : ∀ p ∈ ps, p.numOverviews = .ok (some num) := by
  unfold numOverviews at h
  split at h
  · cases h
  · cases h
  · rename_i c cs hcs
    simp only [Except.ok.injEq] at h
    split at h
    · rename_i hall
      subst h
      intro p hp
      obtain ⟨c', h1, h2⟩ := numOverviewsL_mem hcs p hp
      rcases List.mem_cons.1 h1 with rfl | h1
      · exact h2
      · rw [h2, of_decide_eq_true (List.all_eq_true.1 hall c' h1)]
    · cases h

mutual
/-- Where overviews are left, any number of levels may be counted separately. -/
theorem Calm.raise : ∀ (n : Node) {D : Prop} {L L' j num : Int}, Calm D L j n →
    n.numOverviews = .ok (some num) → 0 < num → Calm D L' j n
  | .leaf l, _, _, _, _, _, h, hn, h0 => by
    rw [Calm] at h ⊢
    simp only [numOverviews, Except.ok.injEq] at hn
    rcases h with h | ⟨h, e⟩ | h
    · exact .inl h
    · rw [hn] at e; cases e; omega
    · exact .inr (.inr h)
  | .concat ps d, _, _, _, _, _, h, hn, h0 => by
    rw [Calm] at h ⊢
    exact CalmL.raise ps h (numOverviews_parts hn) h0
  | .warp s tf _ _, _, _, _, _, _, h, hn, h0 => by
    rw [Calm] at h ⊢; rw [numOverviews] at hn; exact Calm.raise s h hn h0
  | .crop s _ _ _ _ _, _, _, _, _, _, h, hn, h0 => by
    rw [Calm] at h ⊢; rw [numOverviews] at hn; exact Calm.raise s h hn h0
  | .dequant s _ _, _, _, _, _, _, h, hn, h0 => by
    rw [Calm] at h ⊢; rw [numOverviews] at hn; exact Calm.raise s h hn h0
  | .overview s k _, _, _, _, _, _, h, hn, h0 => by
    rw [Calm] at h ⊢
    unfold numOverviews at hn
    split at hn
    · cases hn
    · cases hn
    · rename_i m hm
      simp only [Except.ok.injEq, Option.some.injEq] at hn
      have := h.1
      exact ⟨h.1, Calm.raise s h.2 hm (by omega)⟩
theorem CalmL.raise : ∀ (ps : List Node) {D : Prop} {L L' j num : Int}, CalmL D L j ps →
    (∀ p ∈ ps, p.numOverviews = .ok (some num)) → 0 < num → CalmL D L' j ps
  | [], _, _, _, _, _, _, _, _ => by simp [CalmL]
  | p :: ps, _, _, _, _, _, h, hn, h0 => by
    rw [CalmL] at h ⊢
    exact ⟨Calm.raise p h.1 (hn p (by simp)) h0, CalmL.raise ps h.2 (fun q hq => hn q (by simp [hq])) h0⟩
end

/-- The tests of the code that decide about splitting and absorbing. -/
structure Heur.Coded (H : Heur) : Prop where
  downs : ∀ m, H.downs m = Heur.code.downs m
  big : ∀ m, H.big m = Heur.code.big m

theorem Heur.code_coded : Heur.code.Coded := ⟨fun _ => rfl, fun _ => rfl⟩
theorem Heur.exact_coded : Heur.exact.Coded := ⟨fun _ => rfl, fun _ => rfl⟩

/-- The level of a split. -/
theorem split_level {H : Heur} (hH : H.Coded) {D : Prop} {L j : Int} {s : Node} {tf : Affine}
    {num k : Int} (hL : 0 ≤ L) (hj : 0 ≤ j) (hc : Calm (D ∧ Diag tf) L (j + shrink tf) s)
    (hnum : s.numOverviews = .ok (some num)) (hne : num ≠ 0) (hk : SplitLevel H tf num k) :
    Diag tf ∧ ∃ n : ℕ, k = n ∧ 0 < n ∧ shrink (tf * (ovScale k).inv) + n ≤ shrink tf ∧
      grow (tf * (ovScale k).inv) = 0 := by
  rcases Calm.num s hL hc hnum with ⟨⟨_, hd⟩, hle⟩ | ⟨_, h0⟩
  · obtain ⟨_, rfl, hk0⟩ := hk
    rw [hH.downs] at hk0 ⊢
    obtain ⟨b, hb⟩ : ∃ b, Heur.code.downs tf = (downsUpTo tf b : Nat) := ⟨_, rfl⟩
    rw [hb] at hk0 ⊢
    have hdn : (0 : Int) ≤ (downsUpTo tf b : Nat) := Int.natCast_nonneg _
    obtain ⟨n, hn⟩ := Int.eq_ofNat_of_zero_le (show 0 ≤ min num ((downsUpTo tf b : Nat) : Int) by omega)
    rw [hn]
    have hn0 : 0 < n := by omega
    have hle : n ≤ downsUpTo tf b := by
      have : (n : Int) ≤ (downsUpTo tf b : Nat) := by rw [← hn]; exact min_le_right _ _
      exact_mod_cast this
    have hpos : 0 < downsUpTo tf b := by omega
    have hsc := hd.scalesLe (by positivity) (downsUpTo_spec tf b hpos)
    have hmono : ((2 : ℚ) ^ downsUpTo tf b)⁻¹ ≤ ((2 : ℚ) ^ n)⁻¹ :=
      inv_anti₀ (by positivity) (pow_le_pow_right₀ (by norm_num) hle)
    exact ⟨hd, n, rfl, hn0, split_weight hd (hsc.1.trans hmono) (hsc.2.trans hmono)⟩
  · exact absurd h0 hne

/-! #### the rules -/

/-- The invariant. -/
def Tame (n : Node) : Prop := WF n ∧ Calm True 0 0 n

/-- The relation: the same number of channels, and calm in the same contexts. -/
structure Keeps (a b : Node) : Prop where
  nchan : b.nchan = a.nchan
  calm : ∀ D L j, 0 ≤ L → L ≤ j → Calm D L j a → Calm D L j b

theorem calm_nanLeaf (kind : Nat) (D : Prop) (L j : Int) (d : Int × Int) (names : Option (List Str)) :
    Calm D L j (nanLeaf kind d names) := by rw [nanLeaf, Calm]; exact .inl rfl

theorem calm_take {D : Prop} {L j : Int} : TakeStable (Calm D L j) where
  parts := by
    intro ps d h p hp
    rw [Calm] at h
    exact (CalmL_iff ps).1 h p hp
  concat := by
    intro ps qs d c _ hq hc
    obtain ⟨d', rfl, _, _⟩ := mkConcat_ok hc
    rw [Calm]
    exact (CalmL_iff qs).2 fun q h => (hq q h).1
  nan := fun _ => calm_nanLeaf _ _ _ _ _ _
  crop := by
    intro p idxs t _ hp _ h
    rw [mkCrop_none_form h, Calm]; exact hp

theorem calm_unlink {D : Prop} {L j : Int} : ∀ (ls : List Link) {n : Node}, Calm D L j (unlink ls n) →
    Calm D L j n
  | [], n, h => h
  | .deq q d :: ls, n, h => by rw [unlink, Calm] at h; exact calm_unlink ls h
  | .crop .. :: ls, n, h => by rw [unlink, Calm] at h; exact calm_unlink ls h

theorem calm_relink {D : Prop} {L j : Int} : ∀ (ls : List Link) {n r : Node}, Calm D L j n →
    relink ls n = .ok r → Calm D L j r
  | [], n, r, hn, h => by cases h; exact hn
  | .deq q d :: ls, n, r, hn, h => by
    simp only [relink] at h
    split at h
    · cases h
    · rename_i m hm
      cases h
      rw [Calm]
      exact calm_relink ls hn hm
  | .crop .. :: _, n, r, _, h => by simp [relink] at h

/-- The result of `_opt_warp_after_crop`. -/
theorem warpAfterCrop_form {s inner : Node} {tf tf' : Affine} {y0 y1 x0 x1 : Int} {c : Option (List Nat)}
    (h : warpAfterCrop s tf y0 y1 x0 x1 c = .ok (some (inner, tf'))) :
    SameLin tf' tf ∧ ∃ a b e f, inner = .crop s a b e f c := by
  simp only [warpAfterCrop] at h
  split at h
  · cases h
  · split at h
    · cases h
    · rename_i i hi
      simp only [Except.ok.injEq, Option.some.injEq, Prod.mk.injEq] at h
      obtain ⟨rfl, rfl⟩ := h
      exact ⟨innerSlice_lin _ _ _ _ _ _, _, _, _, _, mkCrop_ints hi⟩

/-- What `_opt_absorb_overview` returns. -/
theorem absorb_form {H : Heur} {s : Node} {tf : Affine} {d : Int × Int} {a : Algo} {r : Node}
    (h : absorb H s tf d a = .ok r) : r = .warp s tf d a ∨ H.big tf = true ∧
      ∃ chain osub k dk tf1 x head, s = unlink chain (.overview osub k dk) ∧ SameLin tf1 (ovScale k) ∧
        r = .warp head (tf * tf1) d a.common ∧
        ((x = osub ∧ relink chain x = .ok head) ∨ ∃ ch y0 y1 x0 x1 c y0' y1' x0' x1',
          chain = ch ++ [.crop y0 y1 x0 x1 c] ∧ x = .crop osub y0' y1' x0' x1' c ∧
          relink ch x = .ok head) := by
  unfold absorb at h
  split at h
  · cases h; exact .inl rfl
  · rename_i hb
    split at h
    · cases h; exact .inl rfl
    · rename_i chain osub k dk hlook
      have hsp := look_spec _ _ _ _ _ _ hlook
      split at h
      · cases h; exact .inl rfl
      · right
        refine ⟨by simpa using hb, chain, osub, k, dk, ?_⟩
        split at h
        · rename_i y0 y1 x0 x1 c hlast
          split at h
          · cases h
          · cases h
          · rename_i inner tf1 hin
            split at h
            · cases h
            · rename_i head hhead
              cases h
              obtain ⟨hl, e1, e2, e3, e4, rfl⟩ := warpAfterCrop_form hin
              obtain ⟨ch, rfl⟩ := List.getLast?_eq_some_iff.1 hlast
              refine ⟨tf1, .crop osub e1 e2 e3 e4 c, head, hsp, hl, rfl, .inr ⟨ch, y0, y1, x0, x1, c, e1, e2, e3, e4, rfl, rfl, ?_⟩⟩
              simpa using hhead
        · split at h
          · cases h
          · rename_i head hhead
            cases h
            exact ⟨ovScale k, osub, head, hsp, ⟨rfl, rfl, rfl, rfl⟩, rfl, .inl ⟨rfl, hhead⟩⟩

theorem paddedCrop_form {s r : Node} {y0 y1 x0 x1 : Int} {pad : (Int × Int) × (Int × Int)}
    (h : paddedCrop s y0 y1 x0 x1 pad = .ok r) : ∃ a b e f, r = .crop s a b e f none ∨
      ∃ x y d al, r = .warp (.crop s a b e f none) (.trans x y) d al := by
  unfold paddedCrop at h
  split at h
  · cases h
  · split at h
    · cases h
    · split at h
      · cases h
      · rename_i new hnew
        have hn := mkCrop_ints hnew
        simp only at h
        split at h
        · cases h
          rw [hn]
          exact ⟨_, _, _, _, .inr ⟨_, _, _, _, rfl⟩⟩
        · cases h
          rw [hn]
          exact ⟨_, _, _, _, .inl rfl⟩

theorem nanCrop_form {l : Leaf} {y0 y1 x0 x1 : Int} {c : Option (List Nat)} {r : Node}
    (h : nanCrop l y0 y1 x0 x1 c = .ok r) : ∃ k d names, r = nanLeaf k d names := by
  unfold nanCrop at h
  split at h
  · cases h
  · split at h
    · cases h
    · split at h
      · cases h
      · cases h; exact ⟨_, _, _, rfl⟩

theorem cropAfterOverview_form {H : Heur} {s r : Node} {y0 y1 x0 x1 k : Int} {c : Option (List Nat)}
    (h : cropAfterOverview H s y0 y1 x0 x1 c k = .ok r) : ∃ a b e f, r = .crop (mkOverview s k) a b e f c ∨
      ∃ x y d al, r = .warp (.crop (mkOverview s k) a b e f c) (.trans x y) d al := by
  unfold cropAfterOverview at h
  simp only at h
  split at h
  · cases h
  · rename_i cr hcr
    have hn := mkCrop_ints hcr
    split at h
    · cases h
      rw [hn]
      exact ⟨_, _, _, _, .inl rfl⟩
    · cases h
      rw [hn]
      exact ⟨_, _, _, _, .inr ⟨_, _, _, _, rfl⟩⟩

theorem Keeps.inv {a b : Node} (h : Keeps a b) (ha : Calm True 0 0 a) : Calm True 0 0 b :=
  h.calm True 0 0 le_rfl le_rfl ha

theorem calm_transWarp {s : Node} {x y : ℚ} {d : Int × Int} {al : Algo} {D : Prop} {L j : Int}
    (hL : 0 ≤ L) (h : Calm D L j s) : Calm D L j (.warp s (.trans x y) d al) := by
  rw [Calm, shrink_trans]
  exact h.mono _ (fun h => ⟨h, diag_trans _ _⟩) hL le_rfl (by simp)

theorem shrink_ovScale (k : ℕ) : shrink (ovScale (k : Int)) ≤ k := by
  obtain ⟨h1, h2⟩ := ovScale_nat k
  rw [(diag_ovScale k).shrink_eq, h1, h2]
  exact up_le (by simp)

theorem nchan_crop_none (s : Node) (a b e f : Int) : nchan (.crop s a b e f none) = nchan s := by
  simp only [nchan]

theorem nchans_forall₂ {ps qs : List Node} (h : List.Forall₂ (fun p q => nchan q = nchan p) ps qs) :
    nchans qs = nchans ps := by
  induction h with
  | nil => rfl
  | cons h _ ih => rw [nchans, nchans, h, ih]

theorem paddedCrop_wf {s r : Node} (hs : WF s) {y0 y1 x0 x1 : Int} {pad : (Int × Int) × (Int × Int)}
    (h : paddedCrop s y0 y1 x0 x1 pad = .ok r) : WF r := (sim_paddedCrop hs .default h).2

/-- Splitting off an overview. -/
theorem calm_split {H : Heur} (hH : H.Coded) {D : Prop} {L j : Int} {s : Node} {tf : Affine}
    {num k : Int} (hL : 0 ≤ L) (hj : L ≤ j) (hc : Calm (D ∧ Diag tf) L (j + shrink tf) s)
    (hnum : s.numOverviews = .ok (some num)) (hne : num ≠ 0) (hk : SplitLevel H tf num k) :
    Calm (D ∧ Diag (tf * (ovScale k).inv)) L (j + shrink (tf * (ovScale k).inv)) (mkOverview s k) ∧
    Calm D L j (mkOverview s k) := by
  obtain ⟨hd, n, rfl, h0, hn, _⟩ := split_level hH hL (hL.trans hj) hc hnum hne hk
  have hpos : 0 < num := by
    rcases Calm.num s hL hc hnum with ⟨_, hle⟩ | ⟨_, h⟩
    · omega
    · exact absurd h hne
  have hr : Calm (D ∧ Diag tf) (L + n) (j + shrink tf) s := hc.raise s hnum hpos
  have h2 : Diag (tf * (ovScale n).inv) := hd.mul (diag_ovScale_inv _)
  rw [mkOverview, Calm, Calm]
  exact ⟨⟨by omega, hr.mono _ (fun h => ⟨h.1, h2⟩) (by omega) le_rfl (by omega)⟩,
    by omega, hr.mono _ (fun h => h.1) (by omega) le_rfl (by omega)⟩

theorem calm_paddedCrop {s r : Node} {y0 y1 x0 x1 : Int} {pad : (Int × Int) × (Int × Int)}
    (h : paddedCrop s y0 y1 x0 x1 pad = .ok r) {D : Prop} {L j : Int} (hL : 0 ≤ L) (hc : Calm D L j s) :
    Calm D L j r ∧ nchan r = nchan s := by
  obtain ⟨a, b, e, f, rfl | ⟨x, y, d, al, rfl⟩⟩ := paddedCrop_form h
  · exact ⟨by rw [Calm]; exact hc, by simp only [nchan]⟩
  · exact ⟨calm_transWarp hL (by rw [Calm]; exact hc), by simp only [nchan]⟩

theorem tameRules (H : Heur) (hH : H.Coded) : Rules H Tame Keeps := by
  have sr := simRules Heur.exact Heur.exact_exact
  have mk : ∀ {a b : Node}, Calm True 0 0 a → WF b → b.nchan = a.nchan →
      (∀ D L j, 0 ≤ L → L ≤ j → Calm D L j a → Calm D L j b) → Tame b ∧ Keeps a b :=
    fun ha hb hn h => ⟨⟨hb, Keeps.inv ⟨hn, h⟩ ha⟩, hn, h⟩
  have ms : ∀ {a b : Node}, Calm True 0 0 a → WF b ∧ Sim a b →
      (∀ D L j, 0 ≤ L → L ≤ j → Calm D L j a → Calm D L j b) → Tame b ∧ Keeps a b :=
    fun ha hb h => mk ha hb.1 hb.2.nchan h
  refine
  { refl := fun _ => ⟨rfl, fun _ _ _ _ _ h => h⟩
    trans := fun h1 h2 => ⟨h2.nchan.trans h1.nchan,
      fun D L j hL hj h => h2.calm D L j hL hj (h1.calm D L j hL hj h)⟩
    sub := ?sub
    parts := fun h p hp => ⟨sr.parts h.1 p hp, calm_take.parts h.2 p hp⟩
    same := fun h => sr.same h.1
    nan := fun h => sr.nan h.1
    cong := ?cong
    concat := ?concat
    push := ?push
    fuseWarps := ?fuseWarps
    idWarp := ?idWarp
    nanWarp := ?nanWarp
    splitWarp := ?splitWarp
    splitOv := ?splitOv
    splitCrop := ?splitCrop
    absorb := ?absorb
    nanCrop := ?nanCrop
    fuseCrops := ?fuseCrops
    warpAfterCrop := ?warpAfterCrop
    dequantCrop := ?dequantCrop
    take := ?take
    renorm := ?renorm
    cropAfterOverview := ?cropAfterOverview
    warpAfterOverview := ?warpAfterOverview
    dequantOverview := ?dequantOverview
    ov0 := ?ov0
    fuseOv := ?fuseOv
    dequantWarp := ?dequantWarp }
  case sub =>
    intro n x hn hx
    refine ⟨sr.sub hn.1 hx, ?_⟩
    have h := hn.2
    cases n with
    | leaf l => simp [subOf] at hx
    | concat _ _ => simp [subOf] at hx
    | warp s tf d a => cases hx; rw [Calm] at h; exact h.mono _ (fun h => h.1) le_rfl le_rfl (by omega)
    | crop s y0 y1 x0 x1 c => cases hx; rw [Calm] at h; exact h
    | overview s k d =>
      cases hx; rw [Calm] at h
      exact h.2.mono _ (fun h => h) le_rfl (by have := h.1; omega) (by have := h.1; omega)
    | dequant s q d => cases hx; rw [Calm] at h; exact h
  case cong =>
    intro n x x' hn hx hx' hs
    have hk : ∀ D L j, 0 ≤ L → L ≤ j → Calm D L j n → Calm D L j (setSub n x') := by
      intro D L j hL hj h
      cases n with
      | leaf l => simp [subOf] at hx
      | concat _ _ => simp [subOf] at hx
      | warp s tf d a =>
        cases hx; rw [setSub, Calm]; rw [Calm] at h
        exact hs.calm _ _ _ hL (by omega) h
      | crop s y0 y1 x0 x1 c =>
        cases hx; rw [setSub, Calm]; rw [Calm] at h; exact hs.calm _ _ _ hL hj h
      | overview s k d =>
        cases hx; rw [setSub, Calm]; rw [Calm] at h
        exact ⟨h.1, hs.calm _ _ _ (by have := h.1; omega) (by omega) h.2⟩
      | dequant s q d =>
        cases hx; rw [setSub, Calm]; rw [Calm] at h; exact hs.calm _ _ _ hL hj h
    have hc := hs.nchan
    refine mk hn.2 ?_ ?_ hk
    · have hw := hn.1
      cases n with
      | leaf l => simp [subOf] at hx
      | concat _ _ => simp [subOf] at hx
      | warp s tf d a => cases hx; exact ⟨hx'.1, hw.2⟩
      | crop s y0 y1 x0 x1 c =>
        cases hx
        exact ⟨hx'.1, hw.2.1, hw.2.2.1, by rw [hc]; exact hw.2.2.2⟩
      | overview s k d => cases hx; exact hx'.1
      | dequant s q d => cases hx; exact hx'.1
    · cases n with
      | leaf l => simp [subOf] at hx
      | concat _ _ => simp [subOf] at hx
      | warp s tf d a => cases hx; simpa only [setSub, nchan] using hc
      | crop s y0 y1 x0 x1 c =>
        cases hx
        cases c with
        | none => simpa only [setSub, nchan] using hc
        | some c => simp only [setSub, nchan]
      | overview s k d => cases hx; simpa only [setSub, nchan] using hc
      | dequant s q d => cases hx; simpa only [setSub, nchan] using hc
  case concat =>
    intro ps d qs c hn hf hc
    obtain ⟨d', rfl, hne, hd'⟩ := mkConcat_ok hc
    refine mk hn.2 ⟨hne, (WFL_iff _ _).2 fun q hq => ?_⟩ ?_ ?_
    · obtain ⟨p, _, h⟩ := forall₂_mem_right hf hq
      exact ⟨h.1.1, hd' q hq⟩
    · rw [nchan, nchan]
      exact nchans_forall₂ (hf.imp fun _ _ h => h.2.nchan)
    · intro D L j hL hj h
      rw [Calm, CalmL_iff] at h ⊢
      intro q hq
      obtain ⟨p, hp, e⟩ := forall₂_mem_right hf hq
      exact e.2.calm D L j hL hj (h p hp)
  case push =>
    intro n ps d c hn hsub hsel h
    refine ms hn.2 (sr.push hn.1 hsub hsel h) ?_
    intro D L j hL hj hc
    unfold pushUnder at h
    split at h
    · cases h
    · rename_i qs hqs
      split at h
      · rename_i c' hc'
        cases h
        obtain ⟨d', rfl, hne, hd'⟩ := mkConcat_ok hc'
        rw [Calm, CalmL_iff]
        intro q hq
        obtain ⟨p, hp, e⟩ := forall₂_mem_right (mapAll_ok hqs) hq
        cases n with
        | leaf l => simp [subOf] at hsub
        | concat _ _ => simp [subOf] at hsub
        | warp s tf dw a =>
          cases hsub; cases e
          rw [Calm, Calm, CalmL_iff] at hc
          rw [Calm]; exact hc p hp
        | crop s y0 y1 x0 x1 c =>
          cases hsub
          rw [Calm, Calm, CalmL_iff] at hc
          simp only [reapply] at e
          rw [mkCrop_ints e, Calm]; exact hc p hp
        | overview s k dw =>
          cases hsub; cases e
          rw [Calm, Calm, CalmL_iff] at hc
          rw [mkOverview, Calm]; exact ⟨hc.1, hc.2 p hp⟩
        | dequant s k dw =>
          cases hsub; cases e
          rw [Calm, Calm, CalmL_iff] at hc
          rw [mkDequant, Calm]; exact hc p hp
      · cases h
      · cases h
  case fuseWarps =>
    intro s t1 d1 a1 t2 d2 a2 h
    refine ms h.2 (sr.fuseWarps h.1) ?_
    intro D L j hL hj hc
    rw [Calm, Calm] at hc
    rw [Calm]
    have h1 : t1.det ≠ 0 := h.1.1.2
    have := shrink_mul (m := t2) (n := t1) h.1.2 h1
    exact hc.mono _ (fun h => ⟨h.1.1, h.1.2.mul h.2⟩) hL le_rfl (by omega)
  case idWarp =>
    intro s tf d a _ _ _
    refine ⟨by simp only [nchan], ?_⟩
    intro D L j hL hj hc
    rw [Calm] at hc
    exact hc.mono _ (fun h => h.1) hL le_rfl (by omega)
  case nanWarp =>
    intro l tf d a h hn
    exact ms h.2 (sr.nanWarp h.1 hn) fun _ _ _ _ _ _ => calm_nanLeaf _ _ _ _ _ _
  case splitWarp =>
    intro s tf d a num k h hnum hne hk
    refine ms h.2 ⟨⟨h.1.1, ?_⟩, sim_split s h.1.1 tf h.1.2 d a _ k⟩ ?_
    · rw [Affine.det_mul]; exact mul_ne_zero h.1.2 (Affine.det_inv _ (det_ovScale k))
    · intro D L j hL hj hc
      rw [Calm] at hc
      rw [Calm]
      exact (calm_split hH hL hj hc hnum hne hk).1
  case splitOv =>
    intro s tf d a num k h hnum hne hk _ _
    refine mk h.2 h.1.1 (by simp only [mkOverview, nchan]) ?_
    intro D L j hL hj hc
    rw [Calm] at hc
    exact (calm_split hH hL hj hc hnum hne hk).2
  case splitCrop =>
    intro s tf d a num k c h hnum hne hk _ hcr
    have hov : WF (mkOverview s k) := h.1.1
    refine mk h.2 (paddedCrop_wf hov hcr) ?_ ?_
    · have h' := h.2
      rw [Calm] at h'
      rw [(calm_paddedCrop hcr le_rfl (calm_split hH le_rfl le_rfl h' hnum hne hk).2).2]
      simp only [mkOverview, nchan]
    · intro D L j hL hj hc
      rw [Calm] at hc
      exact (calm_paddedCrop hcr hL (calm_split hH hL hj hc hnum hne hk).2).1
  case absorb =>
    intro s tf d a num r h hnum hr
    obtain ⟨s1, s2⟩ := sim_absorb h.1 hr
    refine ms h.2 ⟨s2, s1⟩ ?_
    intro D L j hL hj hc
    rcases absorb_form hr with rfl | ⟨_, chain, osub, k, dk, tf1, x, head, rfl, hl, rfl, hx⟩
    · exact hc
    · rw [Calm] at hc
      have ho := calm_unlink chain hc
      rw [Calm] at ho
      obtain ⟨hk, ho⟩ := ho
      obtain ⟨n, rfl⟩ := Int.eq_ofNat_of_zero_le hk
      have d1 : Diag tf1 := hl.diag (diag_ovScale _)
      have hs1 : shrink tf1 ≤ n := by rw [hl.shrink]; exact shrink_ovScale n
      have hs2 := shrink_mul h.1.2 d1.det
      have ho' : Calm (D ∧ Diag (tf * tf1)) L (j + shrink (tf * tf1)) osub :=
        ho.mono _ (fun h => ⟨h.1, h.2.mul d1⟩) hL (by omega) (by omega)
      rw [Calm]
      rcases hx with ⟨rfl, hx⟩ | ⟨ch, y0, y1, x0, x1, c, y0', y1', x0', x1', rfl, rfl, hx⟩
      · exact calm_relink _ ho' hx
      · exact calm_relink _ (by rw [Calm]; exact ho') hx
  case nanCrop =>
    intro l y0 y1 x0 x1 c r h hn hr
    refine ms h.2 (sr.nanCrop h.1 hn hr) ?_
    intro D L j _ _ _
    obtain ⟨_, d', names, rfl⟩ := nanCrop_form hr
    exact calm_nanLeaf _ _ _ _ _ _
  case fuseCrops =>
    intro s iy0 iy1 ix0 ix1 ic y0 y1 x0 x1 c r h hr
    refine ms h.2 (sr.fuseCrops h.1 hr) ?_
    intro D L j hL hj hc
    obtain ⟨_, _, _, _, _, rfl⟩ := fuseCrops_form hr
    rw [Calm, Calm] at hc
    rw [Calm]; exact hc
  case warpAfterCrop =>
    intro s tf d a y0 y1 x0 x1 c inner tf' h hr
    refine ms h.2 (sr.warpAfterCrop h.1 hr) ?_
    intro D L j hL hj hc
    obtain ⟨hl, _, _, _, _, rfl⟩ := warpAfterCrop_form hr
    rw [Calm, Calm] at hc
    rw [Calm, Calm, hl.shrink]
    exact hc.mono _ (fun h => ⟨h.1, hl.diag h.2⟩) hL le_rfl le_rfl
  case dequantCrop =>
    intro s q d y0 y1 x0 x1 c h
    refine ms h.2 (sr.dequantCrop h.1) ?_
    intro D L j hL hj hc
    rw [Calm, Calm] at hc
    rw [mkDequant, Calm, Calm]; exact hc
  case take =>
    intro ps d y0 y1 x0 x1 c t h ht
    have hT := takeIdx_ok _ h.1.1 c t h.1.2.2.2 ht
    have hC : ∀ D L j, Calm D L j (.concat ps d) → Calm D L j t := fun D L j hc =>
      takeIdx_stable calm_take _ h.1.1 hc c t h.1.2.2.2 ht
    have h2 := h.2
    rw [Calm] at h2
    refine ⟨⟨hT.wf, hC _ _ _ h2⟩, ?_⟩
    intro t' cr ht' hk hcr
    refine mk h.2 (wf_mkCrop (c := none) ht'.1 trivial hcr) ?_ ?_
    · rw [mkCrop_ints hcr, nchan_crop_none, hk.nchan, ← den_length, hT.den]
      simp [pick, nchan]
    · intro D L j hL hj hc
      rw [Calm] at hc
      rw [mkCrop_ints hcr, Calm]
      exact hk.calm D L j hL hj (hC D L j hc)
  case renorm =>
    intro ps d y0 y1 x0 x1 cr h hcr
    refine ms h.2 (sr.renorm h.1 hcr) ?_
    intro D L j hL hj hc
    rw [Calm] at hc
    rw [mkCrop_ints hcr, Calm]; exact hc
  case cropAfterOverview =>
    intro s y0 y1 x0 x1 c k d r h hr
    have hw : WF (.crop s y0 y1 x0 x1 c) := h.1
    have hov : WF (mkOverview s k) := hw.1
    have hcr : WF r ∧ nchan r = nchan (.crop s y0 y1 x0 x1 c) := by
      have hidx : IdxOk (nchan (mkOverview s k)) c := by
        rw [mkOverview]; simp only [nchan]; exact hw.2.2.2
      unfold cropAfterOverview at hr
      simp only at hr
      split at hr
      · cases hr
      · rename_i cr hcr
        have h1 := wf_mkCrop hov hidx hcr
        have h2 : nchan cr = nchan (.crop s y0 y1 x0 x1 c) := by
          rw [mkCrop_ints hcr, mkOverview]
          cases c <;> simp only [nchan]
        split at hr
        · cases hr
          exact ⟨h1, h2⟩
        · cases hr
          refine ⟨⟨h1, (diag_trans _ _).det⟩, ?_⟩
          simp only [mkWarp, nchan] at h2 ⊢
          exact h2
    refine mk h.2 hcr.1 (by rw [hcr.2]; simp only [nchan]) ?_
    intro D L j hL hj hc
    rw [Calm, Calm] at hc
    have hc' : Calm D L j (mkOverview s k) := by rw [mkOverview, Calm]; exact hc
    obtain ⟨a, b, e, f, rfl | ⟨x, y, dw, al, rfl⟩⟩ := cropAfterOverview_form hr
    · rw [Calm]; exact hc'
    · exact calm_transWarp hL (by rw [Calm]; exact hc')
  case warpAfterOverview =>
    intro s tf dw a k d h
    refine ms h.2 (sr.warpAfterOverview h.1) ?_
    intro D L j hL hj hc
    have hl := warpAfterOverview_lin tf k
    rw [Calm, Calm] at hc
    rw [warpAfterOverview, mkWarp, Calm, mkOverview, Calm, hl.shrink]
    exact ⟨hc.1, hc.2.mono _ (fun h => ⟨h.1, hl.diag h.2⟩) (by have := hc.1; omega) le_rfl (by omega)⟩
  case dequantOverview =>
    intro s q dq k d h
    refine ms h.2 (sr.dequantOverview h.1) ?_
    intro D L j hL hj hc
    rw [Calm, Calm] at hc
    rw [mkDequant, Calm, Calm]; exact hc
  case ov0 =>
    intro s d h
    refine ⟨by simp only [nchan], ?_⟩
    intro D L j hL hj hc
    rw [Calm] at hc
    simpa using hc.2
  case fuseOv =>
    intro s k1 d1 k d h
    refine ms h.2 (sr.fuseOv h.1) ?_
    intro D L j hL hj hc
    rw [Calm, Calm] at hc
    rw [mkOverview, Calm]
    exact ⟨by omega, hc.2.2.mono _ (fun h => h) (by omega) (by omega) (by omega)⟩
  case dequantWarp =>
    intro s tf dw a q d h
    refine ms h.2 (sr.dequantWarp h.1) ?_
    intro D L j hL hj hc
    rw [Calm, Calm] at hc
    rw [Calm, mkDequant, Calm]; exact hc

/-! #### the measure -/

mutual
/-- The measure of a tree. -/
def mu : Node → Tri
  | .leaf _ => tri 0 0 0
  | .concat ps _ => bump 0 0 (· + 1) (muL ps)
  | .warp s tf _ _ => bump (2 * shrink tf + grow tf) (shrink tf) (F 0) (mu s)
  | .dequant s _ _ => bump 0 0 (F 1) (mu s)
  | .crop s _ _ _ _ c => bump 0 0 (F (match c with | none => 2 | some _ => 3)) (mu s)
  | .overview s k _ => bump (2 * k.toNat) 0 (F 4) (mu s)
def muL : List Node → Tri
  | [] => tri 0 0 0
  | p :: ps => max (mu p) (muL ps)
end

theorem mu_warp (s : Node) (tf : Affine) (d : Int × Int) (a : Algo) :
    mu (.warp s tf d a) = bump (2 * shrink tf + grow tf) (shrink tf) (F 0) (mu s) := by rw [mu]
theorem mu_dequant (s : Node) (q d) : mu (.dequant s q d) = bump 0 0 (F 1) (mu s) := by rw [mu]
theorem mu_crop (s : Node) (a b e f : Int) (c : Option (List Nat)) :
    mu (.crop s a b e f c) = bump 0 0 (F (match c with | none => 2 | some _ => 3)) (mu s) := by
  cases c <;> rw [mu]
theorem mu_overview (s : Node) (k : Int) (d) :
    mu (.overview s k d) = bump (2 * k.toNat) 0 (F 4) (mu s) := by rw [mu]
theorem mu_concat (ps : List Node) (d) : mu (.concat ps d) = bump 0 0 (· + 1) (muL ps) := by rw [mu]
theorem mu_nan (kind : Nat) (d : Int × Int) (names : Option (List Str)) : mu (nanLeaf kind d names) = tri 0 0 0 := by
  rw [nanLeaf, mu]

/-- The number of the function of a crop. -/
def cropNo (c : Option (List Nat)) : Nat := match c with | none => 2 | some _ => 3

theorem cropNo_range (c : Option (List Nat)) : 2 ≤ cropNo c ∧ cropNo c ≤ 3 := by cases c <;> simp [cropNo]

theorem mu_crop' (s : Node) (a b e f : Int) (c : Option (List Nat)) :
    mu (.crop s a b e f c) = bump 0 0 (F (cropNo c)) (mu s) := mu_crop s a b e f c

theorem le_muL {ps : List Node} {p : Node} (h : p ∈ ps) : mu p ≤ muL ps := by
  induction ps with
  | nil => simp at h
  | cons q ps ih =>
    rw [muL]
    rcases List.mem_cons.1 h with rfl | h
    · exact le_max_left _ _
    · exact (ih h).trans (le_max_right _ _)

theorem muL_le {ps : List Node} {t : Tri} (h : ∀ p ∈ ps, mu p ≤ t) : muL ps ≤ t := by
  induction ps with
  | nil => rw [muL]; exact tri_bot t
  | cons q ps ih =>
    rw [muL]
    exact max_le (h q (by simp)) (ih fun p hp => h p (by simp [hp]))

theorem succ_strict : StrictMono (fun x : Nat => x + 1) := fun _ _ h => Nat.add_lt_add_right h 1

theorem le_bump {u v : Nat} {f : Nat → Nat} (hf : ∀ x, x < f x) {s t : Tri} (h : s ≤ t) :
    s < bump u v f t := lt_of_le_of_lt h (lt_bump hf t)

/-- An operation over a concat weighs more than the concat of the operations. -/
theorem bump_concat (u v i : Nat) (t : Tri) :
    bump 0 0 (· + 1) (bump u v (F i) t) < bump u v (F i) (bump 0 0 (· + 1) t) := by
  obtain ⟨a, b, c, rfl⟩ := tri_cases t
  have := F_succ i c
  simp only [bump_tri, tri_lt]
  omega

/-- Two operations are exchanged. -/
theorem bump_swap {u v u' v' i j : Nat} (h : i < j) (t : Tri) :
    bump u v (F i) (bump u' v' (F j) t) < bump u' v' (F j) (bump u v (F i) t) := by
  obtain ⟨a, b, c, rfl⟩ := tri_cases t
  have := F_swap' h c (F_lt i c)
  simp only [bump_tri, tri_lt]
  omega

theorem bump_swap3 {u v i j k : Nat} (hij : i < j) (hjk : j < k) (t : Tri) :
    bump 0 0 (F i) (bump 0 0 (F j) (bump u v (F k) t)) < bump u v (F k) (bump 0 0 (F j) t) := by
  obtain ⟨a, b, c, rfl⟩ := tri_cases t
  have h1 := F_swap' hij (F k c) (Nat.lt_succ_self _)
  have h2 := F_swap hjk c (F_lt j c)
  simp only [bump_tri, tri_lt]
  have h3 : F j (F k c).succ = F j (F k c + 1) := rfl
  omega

theorem concatTake_form {ps : List Node} {d : Int × Int} {reqs : List (Option Nat × Option Str)} {t : Node}
    (h : concatTake d (takers ps) reqs = .ok t) : ∃ qs, mkConcat qs = .ok t ∧ ∀ q ∈ qs,
      (∃ names, q = nanLeaf 0 d names) ∨ q ∈ ps ∨ ∃ p ∈ ps, ∃ idxs, takeIdx p idxs = .ok q := by
  unfold concatTake at h
  split at h
  · cases h
  · rename_i segs hsegs
    split at h
    · cases h
    · rename_i comps hcomps
      have hc := mapAll_ok hcomps
      refine ⟨comps, h, fun q hq => ?_⟩
      obtain ⟨sg, hsg, hsub⟩ := forall₂_mem_right hc hq
      unfold Seg.sub at hsub
      split at hsub
      · cases hsub
        exact .inl ⟨_, rfl⟩
      · rename_i o ho
        rw [takers_eq] at hsub
        simp only [List.getElem?_map] at hsub
        cases hp : ps[o]? with
        | none => rw [hp] at hsub; simp at hsub
        | some p =>
          rw [hp] at hsub
          simp only [Option.map_some] at hsub
          have hmem : p ∈ ps := List.mem_of_getElem? hp
          split at hsub
          · cases hsub
          · cases hsub; exact .inr (.inl hmem)
          · rename_i idxs' hix
            exact .inr (.inr ⟨p, hmem, idxs', hsub⟩)

theorem mu_mkConcat {qs : List Node} {c : Node} (h : mkConcat qs = .ok c) :
    mu c = bump 0 0 (· + 1) (muL qs) := by
  obtain ⟨d', rfl, _, _⟩ := mkConcat_ok h
  rw [mu]

mutual
/-- The weight of a selection of channels. -/
theorem mu_take : ∀ (n : Node) idxs t, takeIdx n idxs = .ok t → mu t ≤ bump 0 0 (F 3) (mu n)
  | .leaf l, idxs, t, h => by rw [takeIdx] at h; rw [mkCrop_none_form h, mu_crop]
  | .warp s tf d a, idxs, t, h => by rw [takeIdx] at h; rw [mkCrop_none_form h, mu_crop]
  | .crop s y0 y1 x0 x1 c, idxs, t, h => by rw [takeIdx] at h; rw [mkCrop_none_form h, mu_crop]
  | .overview s k d, idxs, t, h => by rw [takeIdx] at h; rw [mkCrop_none_form h, mu_crop]
  | .dequant s q d, idxs, t, h => by rw [takeIdx] at h; rw [mkCrop_none_form h, mu_crop]
  | .concat ps d, idxs, t, h => by
    rw [takeIdx] at h
    split at h
    · cases h
    · obtain ⟨qs, hc, hq⟩ := concatTake_form h
      rw [mu_mkConcat hc, mu_concat]
      refine (bump_le succ_strict (muL_le fun q hqm => ?_)).trans (bump_concat 0 0 3 (muL ps)).le
      rcases hq q hqm with ⟨_, rfl⟩ | hq | ⟨p, hp, i, e⟩
      · rw [mu_nan]; exact tri_bot _
      · exact (le_bump (F_lt 3) (le_muL hq)).le
      · exact (mu_takeL ps p hp i q e).trans (bump_le (F_strict 3) (le_muL hp))
theorem mu_takeL : ∀ (ps : List Node), ∀ p ∈ ps, ∀ idxs t, takeIdx p idxs = .ok t →
    mu t ≤ bump 0 0 (F 3) (mu p)
  | [], p, hp, _, _, _ => by simp at hp
  | q :: qs, p, hp, idxs, t, ht => by
    rcases List.mem_cons.1 hp with e | hp
    · rw [e] at ht ⊢; exact mu_take q idxs t ht
    · exact mu_takeL qs p hp idxs t ht
end

theorem mu_take_concat {ps : List Node} {d : Int × Int} {idxs : List Nat} {t : Node}
    (h : takeIdx (.concat ps d) idxs = .ok t) : mu t ≤ bump 0 0 (· + 1) (bump 0 0 (F 3) (muL ps)) := by
  rw [takeIdx] at h
  split at h
  · cases h
  · obtain ⟨qs, hc, hq⟩ := concatTake_form h
    rw [mu_mkConcat hc]
    refine bump_le succ_strict (muL_le fun q hqm => ?_)
    rcases hq q hqm with ⟨_, rfl⟩ | hq | ⟨p, hp, i, e⟩
    · rw [mu_nan]; exact tri_bot _
    · exact (le_bump (F_lt 3) (le_muL hq)).le
    · exact (mu_take p i q e).trans (bump_le (F_strict 3) (le_muL hp))

/-- The first component. -/
def fst3 (t : Tri) : Nat := (ofLex t).1

theorem fst3_bump (u v : Nat) (f : Nat → Nat) (t : Tri) : fst3 (bump u v f t) = fst3 t + u := rfl

theorem lt_of_fst3 {s t : Tri} (h : fst3 s < fst3 t) : s < t := by
  obtain ⟨a, b, c, rfl⟩ := tri_cases s
  obtain ⟨a', b', c', rfl⟩ := tri_cases t
  rw [tri_lt]
  exact .inl h

theorem fst3_unlink (ls : List Link) (n : Node) : fst3 (mu (unlink ls n)) = fst3 (mu n) := by
  induction ls with
  | nil => rfl
  | cons l ls ih =>
    cases l with
    | deq q d => rw [unlink, mu_dequant, fst3_bump, ih]; rfl
    | crop y0 y1 x0 x1 c => rw [unlink, mu_crop, fst3_bump, ih]; rfl

theorem fst3_relink : ∀ (ls : List Link) {n r : Node}, relink ls n = .ok r → fst3 (mu r) = fst3 (mu n)
  | [], n, r, h => by cases h; rfl
  | .deq q d :: ls, n, r, h => by
    simp only [relink] at h
    split at h
    · cases h
    · rename_i m hm
      cases h
      rw [mu_dequant, fst3_bump, fst3_relink ls hm]; rfl
  | .crop .. :: _, n, r, h => by simp [relink] at h

theorem mu_relink : ∀ (ls : List Link) {n m r : Node}, relink ls n = .ok r → mu n ≤ mu m →
    mu r ≤ mu (unlink ls m)
  | [], n, m, r, h, hm => by cases h; exact hm
  | .deq q d :: ls, n, m, r, h, hm => by
    simp only [relink] at h
    split at h
    · cases h
    · rename_i m' hm'
      cases h
      rw [unlink, mu_dequant, mu_dequant]
      exact bump_le (F_strict 1) (mu_relink ls hm' hm)
  | .crop .. :: _, n, m, r, h, hm => by simp [relink] at h

theorem num_unlink {num : Option Int} : ∀ (ls : List Link) {n : Node},
    (unlink ls n).numOverviews = .ok num → n.numOverviews = .ok num
  | [], n, h => h
  | .deq q d :: ls, n, h => by rw [unlink, numOverviews] at h; exact num_unlink ls h
  | .crop .. :: ls, n, h => by rw [unlink, numOverviews] at h; exact num_unlink ls h

theorem sameLin_ovZero {m n : Affine} (h : SameLin n (ovScale 0)) : SameLin (m * n) m := by
  obtain ⟨h1, h2, h3, h4⟩ := h
  simp only [ovScale, Affine.scale, zpow_zero, inv_one] at h1 h2 h3 h4
  simp only [SameLin, Affine.mul_def, Affine.mul, h1, h2, h3, h4]
  refine ⟨?_, ?_, ?_, ?_⟩ <;> ring

theorem mu_paddedCrop {s r : Node} {y0 y1 x0 x1 : Int} {pad : (Int × Int) × (Int × Int)}
    (h : paddedCrop s y0 y1 x0 x1 pad = .ok r) : ∃ f : Nat → Nat, mu r = bump 0 0 f (mu s) := by
  obtain ⟨a, b, e, f, rfl | ⟨x, y, d, al, rfl⟩⟩ := paddedCrop_form h
  · exact ⟨_, mu_crop _ _ _ _ _ _⟩
  · refine ⟨fun x => F 0 (F 2 x), ?_⟩
    rw [mu_warp, mu_crop, shrink_trans, grow_trans]
    rfl

/-- The weight of a split. -/
theorem mu_split {H : Heur} (hH : H.Coded) {s : Node} {tf : Affine} {d : Int × Int} {a : Algo} {num k : Int}
    (h : Tame (.warp s tf d a)) (hnum : s.numOverviews = .ok (some num)) (hne : num ≠ 0)
    (hk : SplitLevel H tf num k) (f : Nat → Nat) :
    bump 0 0 f (mu (mkOverview s k)) < mu (.warp s tf d a) ∧
    mu (.warp (mkOverview s k) (tf * (ovScale k).inv) d a.common) < mu (.warp s tf d a) := by
  have h' := h.2
  rw [Calm] at h'
  obtain ⟨_, n, rfl, h0, h1, h2⟩ := split_level hH le_rfl le_rfl h' hnum hne hk
  rw [mu_warp, mu_warp, mkOverview, mu_overview, h2]
  obtain ⟨x, y, z, e⟩ := tri_cases (mu s)
  rw [e]
  simp only [bump_tri, tri_lt, Int.toNat_natCast]
  constructor <;> omega

/-- The measure decreases on all trees on which it does when warps are split and when they absorb overviews. -/
theorem muShrinks (H : Heur) {P : Node → Prop} (hP : ∀ {n}, P n → WF n)
    (hso : ∀ {s tf d a num k}, P (.warp s tf d a) → s.numOverviews = .ok (some num) → num ≠ 0 →
      SplitLevel H tf num k → mu (mkOverview s k) < mu (.warp s tf d a))
    (hsw : ∀ {s tf d a num k}, P (.warp s tf d a) → s.numOverviews = .ok (some num) → num ≠ 0 →
      SplitLevel H tf num k → mu (.warp (mkOverview s k) (tf * (ovScale k).inv) d a.common) < mu (.warp s tf d a))
    (hsc : ∀ {s tf d a num k c}, P (.warp s tf d a) → s.numOverviews = .ok (some num) → num ≠ 0 →
      SplitLevel H tf num k → paddedCrop (mkOverview s k) 0 d.2 0 d.1 ((0, 0), (0, 0)) = .ok c →
      mu c < mu (.warp s tf d a))
    (hab : ∀ {s tf d a num r}, P (.warp s tf d a) → s.numOverviews = .ok num →
      absorb H s tf d a = .ok r → mu r ≤ mu (.warp s tf d a)) : Shrinks H P mu where
  sub := by
    intro n x _ hx
    cases n with
    | leaf l => simp [subOf] at hx
    | concat _ _ => simp [subOf] at hx
    | warp s tf d a => cases hx; rw [mu_warp]; exact lt_bump (F_lt _) _
    | crop s y0 y1 x0 x1 c => cases hx; rw [mu_crop]; exact lt_bump (F_lt _) _
    | overview s k d => cases hx; rw [mu_overview]; exact lt_bump (F_lt _) _
    | dequant s q d => cases hx; rw [mu_dequant]; exact lt_bump (F_lt _) _
  part := by
    intro ps d p _ hp
    rw [mu_concat]
    exact le_bump (fun x => Nat.lt_succ_self x) (le_muL hp)
  cong := by
    intro n x x' _ hx _ hm
    cases n with
    | leaf l => simp [subOf] at hx
    | concat _ _ => simp [subOf] at hx
    | warp s tf d a => cases hx; rw [setSub, mu_warp, mu_warp]; exact bump_le (F_strict _) hm
    | crop s y0 y1 x0 x1 c => cases hx; rw [setSub, mu_crop, mu_crop]; exact bump_le (F_strict _) hm
    | overview s k d => cases hx; rw [setSub, mu_overview, mu_overview]; exact bump_le (F_strict _) hm
    | dequant s q d => cases hx; rw [setSub, mu_dequant, mu_dequant]; exact bump_le (F_strict _) hm
  concat := by
    intro ps d qs c _ hf hc
    rw [mu_mkConcat hc, mu_concat]
    refine bump_le succ_strict (muL_le fun q hq => ?_)
    obtain ⟨p, hp, e⟩ := forall₂_mem_right hf hq
    exact e.2.trans (le_muL hp)
  push := by
    intro n ps d c _ hsub _ h
    unfold pushUnder at h
    split at h
    · cases h
    · rename_i qs hqs
      split at h
      · rename_i c' hc'
        cases h
        rw [mu_mkConcat hc']
        have hq : ∀ q ∈ qs, ∃ p ∈ ps, reapply n p = .ok q := fun q hq => by
          obtain ⟨p, hp, e⟩ := forall₂_mem_right (mapAll_ok hqs) hq
          exact ⟨p, hp, e⟩
        cases n with
        | leaf l => simp [subOf] at hsub
        | concat _ _ => simp [subOf] at hsub
        | warp s tf dw a =>
          cases hsub
          rw [mu_warp, mu_concat]
          refine (bump_le succ_strict (muL_le fun q hqm => ?_)).trans_lt (bump_concat _ _ _ (muL ps))
          obtain ⟨p, hp, e⟩ := hq q hqm
          cases e
          rw [mu_warp]; exact bump_le (F_strict _) (le_muL hp)
        | crop s y0 y1 x0 x1 c =>
          cases hsub
          rw [mu_crop, mu_concat]
          refine (bump_le succ_strict (muL_le fun q hqm => ?_)).trans_lt (bump_concat _ _ _ (muL ps))
          obtain ⟨p, hp, e⟩ := hq q hqm
          simp only [reapply] at e
          rw [mkCrop_ints e, mu_crop]; exact bump_le (F_strict _) (le_muL hp)
        | overview s k dw =>
          cases hsub
          rw [mu_overview, mu_concat]
          refine (bump_le succ_strict (muL_le fun q hqm => ?_)).trans_lt (bump_concat _ _ _ (muL ps))
          obtain ⟨p, hp, e⟩ := hq q hqm
          cases e
          rw [mkOverview, mu_overview]; exact bump_le (F_strict _) (le_muL hp)
        | dequant s k dw =>
          cases hsub
          rw [mu_dequant, mu_concat]
          refine (bump_le succ_strict (muL_le fun q hqm => ?_)).trans_lt (bump_concat _ _ _ (muL ps))
          obtain ⟨p, hp, e⟩ := hq q hqm
          cases e
          rw [mkDequant, mu_dequant]; exact bump_le (F_strict _) (le_muL hp)
      · cases h
      · cases h
  fuseWarps := by
    intro s t1 d1 a1 t2 d2 a2 h
    have h1 : t1.det ≠ 0 := (hP h).1.2
    have hs := shrink_mul (m := t2) (n := t1) (hP h).2 h1
    have hg := grow_mul t2 t1
    rw [mu_warp, mu_warp, mu_warp]
    obtain ⟨x, y, z, e⟩ := tri_cases (mu s)
    rw [e]
    have := F_lt 0 (F 0 z)
    simp only [bump_tri, tri_le]
    omega
  nanWarp := by
    intro l tf d a _ _
    rw [mu_nan, mu_warp]
    exact le_bump (F_lt _) (tri_bot _)
  splitOv := hso
  splitWarp := hsw
  splitCrop := hsc
  absorb := hab
  nanCrop := by
    intro l y0 y1 x0 x1 c r _ _ hr
    obtain ⟨_, d', names, rfl⟩ := nanCrop_form hr
    rw [mu_nan, mu_crop]
    exact le_bump (F_lt _) (tri_bot _)
  fuseCrops := by
    intro s iy0 iy1 ix0 ix1 ic y0 y1 x0 x1 c r _ hr
    simp only [fuseCrops] at hr
    split at hr
    · cases hr
    · rename_i nc hnc
      rw [mkCrop_ints hr, mu_crop', mu_crop', mu_crop']
      have hno : cropNo nc ≤ max (cropNo ic) (cropNo c) := by
        unfold fuseChans at hnc
        split at hnc
        · cases hnc; simp [cropNo]
        · cases hnc; simp [cropNo]
        · cases hnc; simp [cropNo]
        · split at hnc
          · cases hnc
          · cases hnc; simp [cropNo]
      obtain ⟨x, y, z, e⟩ := tri_cases (mu s)
      rw [e]
      simp only [bump_tri, tri_le]
      refine .inr ⟨trivial, .inr ⟨trivial, ?_⟩⟩
      rcases le_max_iff.1 hno with h | h
      · exact (F_le h z).trans (F_lt _ _).le
      · exact (F_le h z).trans (F_mono _ (F_lt _ _).le)
  warpAfterCrop := by
    intro s tf d a y0 y1 x0 x1 c inner tf' _ hr
    obtain ⟨hl, _, _, _, _, rfl⟩ := warpAfterCrop_form hr
    have := cropNo_range c
    rw [mu_warp, mu_crop', mu_crop', mu_warp, hl.shrink, hl.grow]
    exact bump_swap (by omega) _
  dequantCrop := by
    intro s q d y0 y1 x0 x1 c _
    have := cropNo_range c
    rw [mkDequant, mu_dequant, mu_crop', mu_crop', mu_dequant]
    exact bump_swap (by omega) _
  take := by
    intro ps d y0 y1 x0 x1 c t _ ht
    have h1 := mu_take_concat ht
    have key : bump 0 0 (F 2) (bump 0 0 (· + 1) (bump 0 0 (F 3) (muL ps))) <
        mu (.crop (.concat ps d) y0 y1 x0 x1 (some c)) := by
      rw [mu_crop, mu_concat]
      obtain ⟨x, y, z, e⟩ := tri_cases (muL ps)
      rw [e]
      have := F_swap (i := 2) (j := 3) (by omega) z (Nat.lt_succ_self z)
      simp only [bump_tri, tri_lt]
      exact .inr ⟨trivial, .inr ⟨trivial, this⟩⟩
    refine ⟨(h1.trans_lt (lt_bump (F_lt 2) _)).trans key, ?_⟩
    intro t' cr _ ht' hcr
    rw [mkCrop_ints hcr, mu_crop]
    exact (bump_le (F_strict 2) (ht'.trans h1)).trans_lt key
  renorm := by
    intro ps d y0 y1 x0 x1 cr _ hcr
    rw [mkCrop_ints hcr, mu_crop, mu_crop]
  cropAfterOverview := by
    intro s y0 y1 x0 x1 c k d r _ hr
    have hno := cropNo_range c
    rw [mu_overview, mu_crop']
    obtain ⟨a, b, e, f, rfl | ⟨x, y, dw, al, rfl⟩⟩ := cropAfterOverview_form hr
    · rw [mu_crop', mkOverview, mu_overview]
      exact bump_swap (by omega) _
    · rw [mu_warp, shrink_trans, grow_trans, mu_crop', mkOverview, mu_overview]
      exact bump_swap3 (by omega) (by omega) _
  warpAfterOverview := by
    intro s tf dw a k d _
    have hl := warpAfterOverview_lin tf k
    rw [warpAfterOverview, mkWarp, mu_warp, mkOverview, mu_overview, mu_overview, mu_warp, hl.shrink, hl.grow]
    exact bump_swap (by omega) _
  dequantOverview := by
    intro s q dq k d _
    rw [mkDequant, mu_dequant, mu_overview, mu_overview, mu_dequant]
    exact bump_swap (by omega) _
  fuseOv := by
    intro s k1 d1 k d _
    rw [mkOverview, mu_overview, mu_overview, mu_overview]
    obtain ⟨x, y, z, e⟩ := tri_cases (mu s)
    rw [e]
    have h1 := F_mono 4 (F_lt 4 z).le
    have h2 : (k1 + k).toNat ≤ k1.toNat + k.toNat := by omega
    simp only [bump_tri, tri_le, add_zero, true_and]
    generalize F 4 (F 4 z) = u at *
    generalize F 4 z = w at *
    omega
  dequantWarp := by
    intro s tf dw a q d _
    rw [mu_warp, mkDequant, mu_dequant, mu_dequant, mu_warp]
    exact bump_swap (by omega) _

theorem tameShrinks (H : Heur) (hH : H.Coded) : Shrinks H Tame mu := by
  refine muShrinks H (fun h => h.1) ?_ (fun h hnum hne hk => (mu_split hH h hnum hne hk (fun x => x)).2) ?_ ?_
  · intro s tf d a num k h hnum hne hk
    have := (mu_split hH h hnum hne hk (fun x => x)).1
    have e : bump 0 0 (fun x => x) (mu (mkOverview s k)) = mu (mkOverview s k) := by
      obtain ⟨x, y, z, e⟩ := tri_cases (mu (mkOverview s k))
      rw [e]; rfl
    rw [e] at this
    exact this
  · intro s tf d a num k c h hnum hne hk hc
    obtain ⟨f, hf⟩ := mu_paddedCrop hc
    rw [hf]
    exact (mu_split hH h hnum hne hk f).1
  · intro s tf d a num r h hnum hr
    rcases absorb_form hr with rfl | ⟨hbig, chain, osub, k, dk, tf1, x, head, rfl, hl, rfl, hx⟩
    · exact le_rfl
    · have hc := h.2
      rw [Calm] at hc
      have ho := calm_unlink chain hc
      rw [Calm] at ho
      obtain ⟨hk, ho⟩ := ho
      obtain ⟨n, rfl⟩ := Int.eq_ofNat_of_zero_le hk
      rcases Nat.eq_zero_or_pos n with rfl | hn
      · have hl' := sameLin_ovZero (m := tf) hl
        rw [mu_warp, mu_warp, hl'.shrink, hl'.grow]
        refine bump_le (F_strict _) ?_
        have hle : mu osub ≤ mu (.overview osub ((0 : ℕ) : Int) dk) := by
          rw [mu_overview]; exact (lt_bump (F_lt _) _).le
        rcases hx with ⟨rfl, hx⟩ | ⟨ch, y0, y1, x0, x1, c, y0', y1', x0', x1', rfl, rfl, hx⟩
        · exact mu_relink _ hx hle
        · rw [unlink_append]
          refine mu_relink _ hx ?_
          rw [unlink, unlink, mu_crop, mu_crop]
          exact bump_le (F_strict _) hle
      · have hnum' := num_unlink chain hnum
        have hd : Diag tf := by
          unfold numOverviews at hnum'
          split at hnum'
          · cases hnum'
          · cases hnum'
          · rename_i m hm
            rcases Calm.num osub (by omega) ho hm with ⟨e, _⟩ | ⟨e, _⟩
            · exact e.2
            · omega
        have hb : 1 < tf.a ∨ 1 < tf.d := by
          rw [hH.big] at hbig
          have : scalesLt tf (2 - 1 / 100000000) = false := by simpa [Heur.code] using hbig
          rcases hd.not_scalesLt (by norm_num) this with h | h
          · left; exact lt_of_lt_of_le (by norm_num) h
          · right; exact lt_of_lt_of_le (by norm_num) h
        have hw := absorb_weight hd hn hl hb
        refine (lt_of_fst3 ?_).le
        rw [mu_warp, mu_warp, fst3_bump, fst3_bump, fst3_unlink, mu_overview, fst3_bump]
        have hx' : fst3 (mu head) = fst3 (mu osub) := by
          rcases hx with ⟨rfl, hx⟩ | ⟨ch, y0, y1, x0, x1, c, y0', y1', x0', x1', rfl, rfl, hx⟩
          · exact fst3_relink _ hx
          · rw [fst3_relink _ hx, mu_crop, fst3_bump]; rfl
        rw [hx']
        simp only [Int.toNat_natCast]
        omega

/-- `optimize` ends on such trees. -/
theorem tame_ends (H : Heur) (hH : H.Coded) {n : Node} (hn : Tame n) : ∃ r, Ends H n r := by
  obtain ⟨r, h, _⟩ := (tameShrinks H hH).ends (tameRules H hH) hn
  exact ⟨r, h⟩

end Tree
end Verif
