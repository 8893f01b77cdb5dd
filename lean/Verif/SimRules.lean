/-
Every rewrite of the optimizer keeps the channels of a tree and everything they show.
-/
import Verif.OptLemmas

namespace Verif
namespace Tree

open Helpers Node

/-- Slices normalized again keep everything. -/
theorem sim_renorm {s r : Node} (hs : WF s) {y0 y1 x0 x1 : Int} {c : Option (List Nat)} (hy : 0 ≤ y0)
    (hx : 0 ≤ x0) (hc : IdxOk (nchan s) c) (h : mkCrop s (ints y0 y1 x0 x1) c = .ok r) :
    Sim (.crop s y0 y1 x0 x1 c) r ∧ WF r := by
  refine ⟨?_, wf_mkCrop hs hc h⟩
  rw [mkCrop_ints h]
  refine ⟨by rw [channels_crop, channels_crop], ?_⟩
  rw [den_crop, den_crop]
  refine forall₂_map_self fun ch hch => ?_
  rw [map_eq_via, map_eq_via]
  refine via_le (by simp) fun q hq hin => ?_
  have hin' := in_crop.1 hin
  have hd := selDen_in hs c ch hch q hq
  obtain ⟨ex, ex'⟩ := norm_axis s.dsize.1 x0 x1 q.1 hx hd.1 hd.2.1 hin'.1 hin'.2.1
  obtain ⟨ey, ey'⟩ := norm_axis s.dsize.2 y0 y1 q.2 hy hd.2.2.1 hd.2.2.2 hin'.2.2.1 hin'.2.2.2
  rw [ex, ey] at *
  exact ⟨rfl, in_crop.2 ⟨hin'.1, ex', hin'.2.2.1, ey'⟩⟩

/-- One axis of `embed_slice`. -/
theorem embed_axis {lo hi D pl ph : Int} {sl ex : Int × Int}
    (h : embedSlice lo hi D pl ph = .ok (sl, ex)) (q : ℚ) (h0 : 0 < q) (hD : q < D)
    (h1 : ((lo - pl : Int) : ℚ) < q) (h2 : q < ((hi + ph : Int) : ℚ)) :
    ex.1 - sl.1 = pl - lo ∧ 0 ≤ sl.1 ∧ (sl.1 : ℚ) < q ∧ q < sl.2 ∧
      sl.2 - sl.1 + ex.1 + ex.2 = hi + ph - (lo - pl) ∧ (ex.1 = 0 ∨ 0 < ex.1) := by
  unfold embedSlice at h
  split at h
  · cases h
  · simp only [Except.ok.injEq, Prod.mk.injEq] at h
    obtain ⟨rfl, rfl⟩ := h
    have a1 : lo - pl < D := by exact_mod_cast h1.trans hD
    have a2 : 0 < hi + ph := by exact_mod_cast h0.trans h2
    have a3 : 0 < D := by exact_mod_cast h0.trans hD
    have a4 : lo - pl < hi + ph := by exact_mod_cast h1.trans h2
    have e1 : min D (max 0 (lo - pl)) = max 0 (lo - pl) := by omega
    have e2 : min D (max 0 (hi + ph)) = min D (hi + ph) := by omega
    simp only [e1, e2]
    refine ⟨by omega, by omega, ?_, ?_, by omega, by omega⟩
    · push_cast at h1 ⊢
      exact max_lt h0 h1
    · push_cast at h2 ⊢
      exact lt_min hD h2

/-- `_padded_crop` shows everything of the requested region. -/
theorem sim_paddedCrop {s r : Node} (hs : WF s) {y0 y1 x0 x1 : Int} {pad : (Int × Int) × (Int × Int)}
    (a : Algo) (h : paddedCrop s y0 y1 x0 x1 pad = .ok r) :
    Sim (.warp s (.trans (-(x0 - pad.2.1 : Int)) (-(y0 - pad.1.1 : Int)))
      (x1 + pad.2.2 - (x0 - pad.2.1), y1 + pad.1.2 - (y0 - pad.1.1)) a) r ∧ WF r := by
  unfold paddedCrop at h
  split at h
  · cases h
  · rename_i ysl yex hy
    split at h
    · cases h
    · rename_i xsl xex hx
      split at h
      · cases h
      · rename_i new hnew
        have hwf : WF new := wf_mkCrop hs (c := none) trivial hnew
        have hch : new.channels = s.channels := by rw [mkCrop_ints hnew, channels_crop]; rfl
        -- the facts about one point
        have key : ∀ q : ℚ × ℚ, In s.dsize q →
            In (x1 + pad.2.2 - (x0 - pad.2.1), y1 + pad.1.2 - (y0 - pad.1.1))
              ((Affine.trans (-(x0 - pad.2.1 : Int)) (-(y0 - pad.1.1 : Int))).app q) →
            (xex.1 - xsl.1 = pad.2.1 - x0 ∧ 0 ≤ xsl.1 ∧ (xsl.1 : ℚ) < q.1 ∧ q.1 < xsl.2 ∧
              xsl.2 - xsl.1 + xex.1 + xex.2 = x1 + pad.2.2 - (x0 - pad.2.1) ∧ (xex.1 = 0 ∨ 0 < xex.1)) ∧
            (yex.1 - ysl.1 = pad.1.1 - y0 ∧ 0 ≤ ysl.1 ∧ (ysl.1 : ℚ) < q.2 ∧ q.2 < ysl.2 ∧
              ysl.2 - ysl.1 + yex.1 + yex.2 = y1 + pad.1.2 - (y0 - pad.1.1) ∧ (yex.1 = 0 ∨ 0 < yex.1)) := by
          intro q hq hin
          have hin' := in_crop.1 hin
          exact ⟨embed_axis hx q.1 hq.1 hq.2.1 hin'.1 hin'.2.1,
            embed_axis hy q.2 hq.2.2.1 hq.2.2.2 hin'.2.2.1 hin'.2.2.2⟩
        -- the inner crop
        have crop : ∀ q : ℚ × ℚ, In s.dsize q → (xsl.1 : ℚ) < q.1 → q.1 < xsl.2 → (ysl.1 : ℚ) < q.2 →
            q.2 < ysl.2 → 0 ≤ xsl.1 → 0 ≤ ysl.1 →
            new = .crop s ysl.1 (max ysl.1 (normBound s.dsize.2 ysl.2)) xsl.1
              (max xsl.1 (normBound s.dsize.1 xsl.2)) none ∧
            q.1 < (max xsl.1 (normBound s.dsize.1 xsl.2) : Int) ∧
            q.2 < (max ysl.1 (normBound s.dsize.2 ysl.2) : Int) := by
          intro q hq h1 h2 h3 h4 h5 h6
          obtain ⟨ex, ex'⟩ := norm_axis s.dsize.1 xsl.1 xsl.2 q.1 h5 hq.1 hq.2.1 h1 h2
          obtain ⟨ey, ey'⟩ := norm_axis s.dsize.2 ysl.1 ysl.2 q.2 h6 hq.2.2.1 hq.2.2.2 h3 h4
          have := mkCrop_ints hnew
          rw [ex, ey] at *
          exact ⟨this, ex', ey'⟩
        have hform := mkCrop_ints hnew
        simp only at h
        split at h
        · rename_i hpad
          simp only [Except.ok.injEq] at h
          subst h
          refine ⟨⟨?_, ?_⟩, ⟨hwf, by simp⟩⟩
          · rw [mkWarp, channels_warp, channels_warp, hch]
          · rw [mkWarp, den_warp, den_warp, hform, den_crop, List.map_map]
            refine forall₂_map_self fun c hc => ?_
            simp only [Function.comp]
            rw [map_eq_via c, map_eq_via c, map_via _ _ (by simp) (by simp)]
            refine via_le (by simp) fun q hq hin => ?_
            have hqin := den_in s hs c hc q hq
            obtain ⟨⟨kx1, kx2, kx3, kx4, kx5, kx6⟩, ky1, ky2, ky3, ky4, ky5, ky6⟩ := key q hqin hin
            obtain ⟨e, ex', ey'⟩ := crop q hqin kx3 kx4 ky3 ky4 kx2 ky2
            rw [hform] at e
            simp only [Node.crop.injEq, true_and, and_true] at e
            obtain ⟨e1, e2, e3, e4⟩ := e
            rw [e1, e2, e3, e4] at *
            have et : Affine.trans xex.1 yex.1 * Affine.trans (-xsl.1) (-ysl.1) =
                Affine.trans (-(x0 - pad.2.1 : Int)) (-(y0 - pad.1.1 : Int)) := by
              rw [Affine.trans_mul]
              have c1 : (xex.1 : ℚ) + -xsl.1 = -((x0 - pad.2.1 : Int) : ℚ) := by
                push_cast
                have : ((xex.1 - xsl.1 : Int) : ℚ) = ((pad.2.1 - x0 : Int) : ℚ) := by rw [kx1]
                push_cast at this; linarith
              have c2 : (yex.1 : ℚ) + -ysl.1 = -((y0 - pad.1.1 : Int) : ℚ) := by
                push_cast
                have : ((yex.1 - ysl.1 : Int) : ℚ) = ((pad.1.1 - y0 : Int) : ℚ) := by rw [ky1]
                push_cast at this; linarith
              rw [c1, c2]
            refine ⟨et, ?_, ?_⟩
            · rw [kx5, ky5]; exact hin
            · rw [← et, Affine.app_mul, Affine.inv_app_app _ (by simp)]
              exact in_crop.2 ⟨kx3, ex', ky3, ey'⟩
        · rename_i hpad
          simp only [Except.ok.injEq] at h
          subst h
          simp only [not_or, not_not] at hpad
          obtain ⟨p1, p2, p3, p4⟩ := hpad
          refine ⟨⟨by rw [hch, channels_warp], ?_⟩, hwf⟩
          rw [den_warp, hform, den_crop]
          refine forall₂_map_self fun c hc => ?_
          rw [map_eq_via, map_eq_via]
          refine via_le (by simp) fun q hq hin => ?_
          have hqin := den_in s hs c hc q hq
          obtain ⟨⟨kx1, kx2, kx3, kx4, kx5, kx6⟩, ky1, ky2, ky3, ky4, ky5, ky6⟩ := key q hqin hin
          obtain ⟨e, ex', ey'⟩ := crop q hqin kx3 kx4 ky3 ky4 kx2 ky2
          rw [hform] at e
          simp only [Node.crop.injEq, true_and, and_true] at e
          obtain ⟨e1, e2, e3, e4⟩ := e
          rw [e1, e2, e3, e4] at *
          have c1 : xsl.1 = x0 - pad.2.1 := by omega
          have c2 : ysl.1 = y0 - pad.1.1 := by omega
          rw [← c1, ← c2]
          exact ⟨rfl, in_crop.2 ⟨kx3, ex', ky3, ey'⟩⟩

/-- `DelayedNans._optimized_crop`. -/
theorem sim_nanCrop {l : Leaf} {y0 y1 x0 x1 : Int} {c : Option (List Nat)} {r : Node}
    (hl : l.WF) (hn : l.nan = true) (hc : IdxOk l.nchan c) (h : nanCrop l y0 y1 x0 x1 c = .ok r) :
    Sim (.crop (.leaf l) y0 y1 x0 x1 c) r ∧ WF r := by
  obtain ⟨names, he⟩ := Option.isSome_iff_exists.1 (hl.2 hn).1
  have hlen : names.length = l.nchan := hl.1 names he
  unfold nanCrop at h
  split at h
  · cases h
  · rename_i ns hns
    split at h
    · cases h
    · split at h
      · cases h
      · rename_i ysl yex hy xsl xex hx
        cases h
        have hns' : ∃ m, ns = some m ∧ selNames (.leaf l) c = some m ∧
            m.length = nchan (.crop (.leaf l) y0 y1 x0 x1 c : Node) := by
          cases c with
          | none =>
            simp only [Except.ok.injEq] at hns
            exact ⟨names, by rw [← hns, he], by simp [selNames, channels, he], by simp [nchan, hlen]⟩
          | some c =>
            rw [he] at hns
            simp only at hns
            split at hns
            · simp only [Except.ok.injEq] at hns
              exact ⟨pick [] names c, hns.symm, by simp [selNames, channels, he], by simp [nchan, pick]⟩
            · cases hns
        obtain ⟨m, rfl, hm1, hm2⟩ := hns'
        refine ⟨⟨?_, ?_⟩, ?_⟩
        · rw [channels_crop, hm1]; rfl
        · apply forall₂_nan
          · rw [nanLeaf_den_length, hm2, den_length]
          · intro ch hch p hp
            rw [den_crop] at hch
            obtain ⟨ch', hch', rfl⟩ := List.mem_map.1 hch
            have hp2 := hp.2
            have : ∀ x ∈ den (.leaf l), ∀ p, ¬ x.dom p := by
              intro x hx p hp
              simp only [den, List.mem_map] at hx
              obtain ⟨i, _, rfl⟩ := hx
              have := hp.1
              rw [hn] at this
              cases this
            cases c with
            | none => exact this _ hch' _ hp2
            | some c =>
              simp only [selDen, pick, List.mem_map] at hch'
              obtain ⟨i, hi, rfl⟩ := hch'
              have hi' : i < (den (.leaf l)).length := by rw [den_length]; exact hc i hi
              rw [List.getD_eq_getElem _ _ hi'] at hp2
              exact this _ (List.getElem_mem hi') _ hp2
        · refine ⟨?_, fun _ => ⟨rfl, rfl⟩⟩
          intro ns' h'
          cases h'
          rfl

/-! #### absorbing an overview -/

/-- The chain of operations over a node. -/
def unlink : List Link → Node → Node
  | [], n => n
  | .deq q d :: ls, n => .dequant (unlink ls n) q d
  | .crop y0 y1 x0 x1 c :: ls, n => .crop (unlink ls n) y0 y1 x0 x1 c

theorem unlink_append (l m : List Link) (n : Node) : unlink (l ++ m) n = unlink l (unlink m n) := by
  induction l with
  | nil => rfl
  | cons x l ih => cases x <;> simp [unlink, ih]

theorem look_spec (fuel : Nat) (s : Node) : ∀ chain osub k d, look fuel s = some (chain, osub, k, d) →
    s = unlink chain (.overview osub k d) := by
  induction fuel generalizing s with
  | zero => intro _ _ _ _ h; simp [look] at h
  | succ n ih =>
    intro chain osub k d h
    rw [look_step] at h
    split at h
    · cases h; rfl
    · simp only [Option.map_eq_some_iff, Prod.mk.injEq] at h
      obtain ⟨⟨c, o, k', d'⟩, h1, rfl, rfl, rfl, rfl⟩ := h
      simp only [unlink]
      rw [← ih _ _ _ _ _ h1]
    · simp only [Option.map_eq_some_iff, Prod.mk.injEq] at h
      obtain ⟨⟨c, o, k', d'⟩, h1, rfl, rfl, rfl, rfl⟩ := h
      simp only [unlink]
      rw [← ih _ _ _ _ _ h1]
    · cases h

theorem WF.unlink {ls : List Link} {n : Node} (h : WF (unlink ls n)) : WF n := by
  induction ls with
  | nil => exact h
  | cons x l ih =>
    cases x with
    | deq q d => exact ih h
    | crop y0 y1 x0 x1 c => exact ih h.1

theorem relink_dsize {ls : List Link} {n m : Node} (h : relink ls n = .ok m) : m.dsize = n.dsize := by
  cases ls with
  | nil => cases h; rfl
  | cons x l =>
    cases x with
    | deq q d =>
      simp only [relink] at h
      split at h
      · cases h
      · cases h; rfl
    | crop y0 y1 x0 x1 c => simp [relink] at h

theorem sim_relink {ls : List Link} {n m head : Node} (hm : WF m) {t : Affine} (ht : t.det ≠ 0)
    {d : Int × Int} {b : Algo} (hs : Sim n (.warp m t d b)) (h : relink ls m = .ok head) :
    Sim (unlink ls n) (.warp head t d b) ∧ WF head := by
  induction ls generalizing head with
  | nil => cases h; exact ⟨hs, hm⟩
  | cons x l ih =>
    cases x with
    | deq q dq =>
      simp only [relink] at h
      split at h
      · cases h
      · rename_i m' hm'
        cases h
        obtain ⟨k1, k2⟩ := ih hm'
        refine ⟨?_, k2⟩
        have := (k1.dequant q dq).trans (sim_dequantWarp m' k2 t ht d dq b q)
        rwa [mkDequant, relink_dsize hm'] at this
    | crop y0 y1 x0 x1 c => simp [relink] at h

theorem sim_absorb {H : Heur} {s : Node} {tf : Affine} {d : Int × Int} {a : Algo} {r : Node}
    (hw : WF (.warp s tf d a)) (h : absorb H s tf d a = .ok r) : Sim (.warp s tf d a) r ∧ WF r := by
  obtain ⟨hs, htf⟩ := hw
  unfold absorb at h
  split at h
  · cases h; exact ⟨.refl _, hs, htf⟩
  · split at h
    · cases h; exact ⟨.refl _, hs, htf⟩
    · rename_i chain osub k dk hlook
      have hsp := look_spec _ _ _ _ _ _ hlook
      split at h
      · cases h; exact ⟨.refl _, hs, htf⟩
      · split at h
        · rename_i y0 y1 x0 x1 c hlast
          have hchain : chain = chain.dropLast ++ [.crop y0 y1 x0 x1 c] := by
            obtain ⟨ys, rfl⟩ := List.getLast?_eq_some_iff.1 hlast
            simp
          rw [hchain, unlink_append] at hsp
          have hcrop : WF (unlink [.crop y0 y1 x0 x1 c] (.overview osub k dk)) := by
            rw [hsp] at hs; exact hs.unlink
          simp only [unlink] at hcrop hsp
          have hosub : WF osub := hcrop.1
          split at h
          · cases h
          · cases h
          · rename_i inner tf1 hin
            split at h
            · cases h
            · rename_i head hhead
              cases h
              obtain ⟨k1, k2, k3, _⟩ := sim_warpAfterCrop hosub (det_ovScale k)
                (c := c) (by simpa [nchan] using hcrop.2.2.2) hin dk a a
              have k0 := ((sim_overviewAsWarp osub k dk a).crop y0 y1 x0 x1 c).trans k1
              obtain ⟨k5, k6⟩ := sim_relink k2 k3 k0 hhead
              rw [← hsp] at k5
              exact ⟨(k5.warp tf d a a).trans (sim_fuseWarps head tf1 tf k3 htf _ d a a a.common),
                k6, by rw [Affine.det_mul]; exact mul_ne_zero htf k3⟩
        · split at h
          · cases h
          · rename_i head hhead
            cases h
            have hosub : WF osub := by rw [hsp] at hs; exact hs.unlink
            obtain ⟨k5, k6⟩ := sim_relink hosub (det_ovScale k) (sim_overviewAsWarp osub k dk a) hhead
            rw [← hsp] at k5
            exact ⟨(k5.warp tf d a a).trans (sim_fuseWarps head _ tf (det_ovScale k) htf _ d a a a.common),
              k6, by rw [Affine.det_mul]; exact mul_ne_zero htf (det_ovScale k)⟩

/-! #### operations on concats -/

theorem sim_push_parts {g : Node → Py Node} {f : Chan → Chan} {ps qs : List Node}
    (hg : ∀ p ∈ ps, ∀ q, g p = .ok q →
      q.channels = p.channels ∧ WF q ∧ List.Forall₂ Chan.Le ((den p).map f) (den q))
    (h : mapAll g ps = .ok qs) :
    channelsL qs = channelsL ps ∧ (∀ q ∈ qs, WF q) ∧ List.Forall₂ Chan.Le ((denL ps).map f) (denL qs) := by
  have hm := mapAll_ok h
  clear h
  induction hm with
  | nil => exact ⟨rfl, by simp, .nil⟩
  | @cons p q ps qs hpq _ ih =>
    obtain ⟨i1, i2, i3⟩ := ih fun p hp => hg p (by simp [hp])
    obtain ⟨k1, k2, k3⟩ := hg p (by simp) q hpq
    refine ⟨by simp only [channelsL, k1, i1], ?_, ?_⟩
    · intro x hx
      rcases List.mem_cons.1 hx with rfl | hx
      · exact k2
      · exact i2 x hx
    · simp only [denL, List.map_append]
      exact List.rel_append k3 i3

theorem sim_push {n c : Node} {ps : List Node} {d : Int × Int} (hn : WF n)
    (hsub : subOf n = .ok (some (.concat ps d))) (hsel : ¬ selects n)
    (h : pushUnder n ps = .ok (some c)) : WF c ∧ Sim n c := by
  unfold pushUnder at h
  split at h
  · cases h
  · rename_i qs hqs
    split at h
    · rename_i c' hc
      cases h
      obtain ⟨d', rfl, hne, hd'⟩ := mkConcat_ok hc
      -- it suffices to look at every part
      have main : ∀ f : Chan → Chan, WFL d ps → n.channels = channelsL ps → den n = (denL ps).map f →
          (∀ p ∈ ps, WF p → p.dsize = d → ∀ q, reapply n p = .ok q →
            q.channels = p.channels ∧ WF q ∧ List.Forall₂ Chan.Le ((den p).map f) (den q)) →
          WF (.concat qs d') ∧ Sim n (.concat qs d') := by
        intro f hps hch hden hp
        obtain ⟨k1, k2, k3⟩ := sim_push_parts (fun p hpm q hq =>
          hp p hpm ((WFL_iff d ps).1 hps p hpm).1 ((WFL_iff d ps).1 hps p hpm).2 q hq) hqs
        refine ⟨⟨hne, (WFL_iff d' qs).2 fun q hq => ⟨k2 q hq, hd' q hq⟩⟩, ?_, ?_⟩
        · rw [hch, ← k1, Node.channels]
        · rw [hden, show den (.concat qs d') = denL qs from by rw [den]]
          exact k3
      cases n with
      | leaf l => simp [subOf] at hsub
      | concat _ _ => simp [subOf] at hsub
      | warp s tf dw a =>
        simp only [subOf, Except.ok.injEq, Option.some.injEq] at hsub
        subst hsub
        have hps : WFL d ps := by have := hn.1; rw [WF] at this; exact this.2
        refine main (Chan.map tf dw) hps (by simp only [channels]) (by simp only [den]) ?_
        intro p _ hwp _ q hq
        simp only [reapply, Except.ok.injEq] at hq
        subst hq
        exact ⟨by rw [channels_warp], ⟨hwp, hn.2⟩, by rw [den_warp]; exact forall₂_le_refl _⟩
      | overview s k dw =>
        simp only [subOf, Except.ok.injEq, Option.some.injEq] at hsub
        subst hsub
        have hps : WFL d ps := by have : WF (.concat ps d) := hn; rw [WF] at this; exact this.2
        refine main (Chan.map (ovScale k) dw) hps (by simp only [channels]) (by simp only [den]) ?_
        intro p _ hwp _ q hq
        simp only [reapply, Except.ok.injEq] at hq
        subst hq
        refine ⟨by rw [mkOverview, channels_overview], hwp, ?_⟩
        have hin := fun x => in_mkOverview k p x
        rw [mkOverview, den_overview]
        refine forall₂_map_self fun ch hch => ?_
        rw [map_eq_via, map_eq_via]
        exact via_le (det_ovScale k) fun x hx _ => ⟨rfl, hin x (den_in p hwp ch hch x hx)⟩
      | dequant s qz dw =>
        simp only [subOf, Except.ok.injEq, Option.some.injEq] at hsub
        subst hsub
        have hps : WFL d ps := by have : WF (.concat ps d) := hn; rw [WF] at this; exact this.2
        refine main (fun c => (c.map .id dw).deq qz) hps (by simp only [channels]) (by simp only [den]) ?_
        intro p _ hwp _ q hq
        simp only [reapply, Except.ok.injEq] at hq
        subst hq
        refine ⟨by rw [mkDequant, channels_dequant], hwp, ?_⟩
        rw [mkDequant, den_dequant]
        refine forall₂_map_self fun ch hch => Chan.Le.deq ?_ qz
        rw [map_eq_via, map_eq_via]
        refine via_le (by simp) fun x hx _ => ⟨rfl, ?_⟩
        rw [Affine.app_id]
        exact den_in p hwp ch hch x hx
      | crop s y0 y1 x0 x1 c =>
        cases c with
        | some c => exact absurd trivial hsel
        | none =>
          simp only [subOf, Except.ok.injEq, Option.some.injEq] at hsub
          subst hsub
          have hps : WFL d ps := by have := hn.1; rw [WF] at this; exact this.2
          refine main (Chan.map (.trans (-x0) (-y0)) (x1 - x0, y1 - y0)) hps (by simp only [channels])
            (by rw [den_crop]; simp only [selDen, den]) ?_
          intro p _ hwp _ q hq
          simp only [reapply] at hq
          obtain ⟨k1, k2⟩ := sim_renorm hwp hn.2.1 hn.2.2.1 (c := none) trivial hq
          refine ⟨by rw [k1.channels, channels_crop]; rfl, k2, ?_⟩
          have := k1.den
          rw [den_crop] at this
          exact this
    · cases h
    · cases h

/-- Crops with channels of a concat. -/
theorem sim_take {ps : List Node} {d : Int × Int} {y0 y1 x0 x1 : Int} {c : List Nat} {t t' cr : Node}
    (hn : WF (.crop (.concat ps d) y0 y1 x0 x1 (some c))) (ht : takeIdx (.concat ps d) c = .ok t)
    (ht' : WF t') (hs : Sim t t') (h : mkCrop t' (ints y0 y1 x0 x1) none = .ok cr) :
    WF cr ∧ Sim (.crop (.concat ps d) y0 y1 x0 x1 (some c)) cr := by
  have hT := takeIdx_ok (.concat ps d) hn.1 c t hn.2.2.2 ht
  have k0 : Sim (.crop (.concat ps d) y0 y1 x0 x1 (some c)) (.crop t y0 y1 x0 x1 none) := by
    refine ⟨?_, ?_⟩
    · rw [channels_crop, channels_crop]
      simp only [selNames, hT.channels]
    · rw [den_crop, den_crop]
      simp only [selDen, hT.den]
      exact forall₂_le_refl _
  obtain ⟨k1, k2⟩ := sim_renorm ht' hn.2.1 hn.2.2.1 (c := none) trivial h
  exact ⟨k2, k0.trans ((hs.crop y0 y1 x0 x1 none).trans k1)⟩

theorem ovScale_zero : ovScale 0 = .id := by
  simp only [ovScale, zpow_zero, inv_one]
  ext <;> simp [Affine.scale, Affine.id]

theorem ovScale_add (a b : Int) : ovScale b * ovScale a = ovScale (a + b) := by
  simp only [ovScale, Affine.scale_mul]
  congr 1
  rw [zpow_add₀ (by norm_num), mul_inv, mul_comm]

theorem sim_ov0 (s : Node) (d : Int × Int) : Sim (.overview s 0 d) s := by
  have := sim_overviewAsWarp s 0 d .default
  rw [ovScale_zero] at this
  exact this.trans (sim_idWarp s d .default)

theorem sim_fuseOv (s : Node) (hs : WF s) (k1 k : Int) (d1 d : Int × Int) :
    Sim (.overview (.overview s k1 d1) k d) (mkOverview s (k1 + k)) := by
  refine ⟨by rw [mkOverview, channels_overview, channels_overview, channels_overview], ?_⟩
  have hin := fun x => in_mkOverview (k1 + k) s x
  rw [mkOverview, den_overview, den_overview, den_overview, List.map_map]
  refine forall₂_map_self fun c hc => ?_
  simp only [Function.comp]
  rw [map_eq_via c, map_eq_via c, map_via _ _ (det_ovScale k) (det_ovScale k1), ovScale_add]
  exact via_le (det_ovScale _) fun x hx _ => ⟨rfl, hin x (den_in s hs c hc x hx)⟩

/-! #### all rules -/

theorem wf_sub {n x : Node} (hn : WF n) (h : subOf n = .ok (some x)) : WF x := by
  cases n with
  | leaf l => simp [subOf] at h
  | concat _ _ => simp [subOf] at h
  | warp s _ _ _ => cases h; exact hn.1
  | crop s _ _ _ _ _ => cases h; exact hn.1
  | overview s _ _ => cases h; exact hn
  | dequant s _ _ => cases h; exact hn

theorem wf_nanLeaf {d : Int × Int} {l : Leaf} (hl : l.WF) (hn : l.nan = true) : WF (nanLeaf l.id d l.names) := by
  obtain ⟨names, he⟩ := Option.isSome_iff_exists.1 (hl.2 hn).1
  rw [he]
  refine ⟨?_, fun _ => ⟨rfl, rfl⟩⟩
  intro ns h
  cases h
  rfl

theorem simRules (H : Heur) (hH : H.Exact) : Rules H WF Sim where
  refl := Sim.refl
  trans := Sim.trans
  sub := wf_sub
  parts := fun h p hp => ((WFL_iff _ _).1 h.2 p hp).1
  same := fun h p hp => ((WFL_iff _ _).1 h.2 p hp).2
  nan := fun h hn => (h.2 hn).2
  cong := by
    intro n x x' hn hx hx' hs
    cases n with
    | leaf l => simp [subOf] at hx
    | concat _ _ => simp [subOf] at hx
    | warp s tf d a => cases hx; exact ⟨⟨hx', hn.2⟩, hs.warp tf d a a⟩
    | crop s y0 y1 x0 x1 c =>
      cases hx
      exact ⟨⟨hx', hn.2.1, hn.2.2.1, by rw [hs.nchan]; exact hn.2.2.2⟩, hs.crop y0 y1 x0 x1 c⟩
    | overview s k d => cases hx; exact ⟨hx', hs.overview k d⟩
    | dequant s q d => cases hx; exact ⟨hx', hs.dequant q d⟩
  concat := by
    intro ps d qs c hn hf hc
    obtain ⟨d', rfl, hne, hd'⟩ := mkConcat_ok hc
    refine ⟨⟨hne, (WFL_iff _ _).2 fun q hq => ?_⟩, Sim.concat (hf.imp fun _ _ h => h.2) d d'⟩
    obtain ⟨p, _, h⟩ := forall₂_mem_right hf hq
    exact ⟨h.1, hd' q hq⟩
  push := fun hn hsub hsel h => sim_push hn hsub hsel h
  fuseWarps := by
    intro s t1 d1 a1 t2 d2 a2 h
    have h1 : t1.det ≠ 0 := h.1.2
    exact ⟨⟨h.1.1, by rw [Affine.det_mul]; exact mul_ne_zero h.2 h1⟩,
      sim_fuseWarps s t1 t2 h1 h.2 d1 d2 a1 a2 _⟩
  idWarp := by
    intro s tf d a _ _ hn
    rw [hH.negl _ _ hn]
    exact sim_idWarp s d a
  nanWarp := by
    intro l tf d a h hn
    exact ⟨wf_nanLeaf h.1 hn, sim_nanWarp l h.1 hn tf d a⟩
  splitWarp := by
    intro s tf d a num k h _ _ _
    exact ⟨⟨h.1, by
      rw [Affine.det_mul]; exact mul_ne_zero h.2 (Affine.det_inv _ (det_ovScale k))⟩,
      sim_split s h.1 tf h.2 d a _ k⟩
  splitOv := by
    intro s tf d a num k h _ _ _ hid hd
    refine ⟨h.1, ?_⟩
    have := sim_split s h.1 tf h.2 d a a k
    rw [hH.closeId _ hid] at this
    exact this.trans (sim_idWarp _ d a)
  splitCrop := by
    intro s tf d a num k c h _ _ _ hid hc
    have h1 := sim_split s h.1 tf h.2 d a a k
    rw [hH.closeId _ hid] at h1
    have hov : WF (mkOverview s k) := h.1
    obtain ⟨h2, h3⟩ := sim_paddedCrop hov a hc
    refine ⟨h3, h1.trans ?_⟩
    have e : Affine.trans (-((0 - 0 : Int) : ℚ)) (-((0 - 0 : Int) : ℚ)) = Affine.id := by
      ext <;> simp [Affine.trans, Affine.id]
    simp only [e] at h2
    simpa using h2
  absorb := fun h _ hr => by obtain ⟨h1, h2⟩ := sim_absorb h hr; exact ⟨h2, h1⟩
  nanCrop := by
    intro l y0 y1 x0 x1 c r h hn hr
    obtain ⟨h1, h2⟩ := sim_nanCrop h.1 hn (by simpa [nchan] using h.2.2.2) hr
    exact ⟨h2, h1⟩
  fuseCrops := by
    intro s iy0 iy1 ix0 ix1 ic y0 y1 x0 x1 c r h hr
    obtain ⟨h1, h2, _⟩ := sim_fuseCrops h.1.1 h.1 h.2.1 h.2.2.1 h.2.2.2 hr
    exact ⟨h2, h1⟩
  warpAfterCrop := by
    intro s tf d a y0 y1 x0 x1 c inner tf' h hr
    obtain ⟨h1, h2, h3, _⟩ := sim_warpAfterCrop h.1.1 h.1.2 (by simpa [nchan] using h.2.2.2) hr d a a.common
    exact ⟨⟨h2, h3⟩, h1⟩
  dequantCrop := by
    intro s q d y0 y1 x0 x1 c h
    have hc : IdxOk (nchan s) c := by simpa [nchan] using h.2.2.2
    exact ⟨⟨h.1, h.2.1, h.2.2.1, hc⟩, sim_dequantCrop s d _ y0 y1 x0 x1 c hc q rfl⟩
  take := by
    intro ps d y0 y1 x0 x1 c t h ht
    exact ⟨(takeIdx_ok _ h.1 c t h.2.2.2 ht).wf, fun t' cr ht' hs hcr => sim_take h ht ht' hs hcr⟩
  renorm := by
    intro ps d y0 y1 x0 x1 cr h hcr
    obtain ⟨h1, h2⟩ := sim_renorm h.1 h.2.1 h.2.2.1 (c := none) trivial hcr
    exact ⟨h2, h1⟩
  cropAfterOverview := by
    intro s y0 y1 x0 x1 c k d r h hr
    have h' : WF (.crop s y0 y1 x0 x1 c) := h
    obtain ⟨h1, h2⟩ := sim_cropAfterOverview H h'.1 h'.2.1 h'.2.2.1 h'.2.2.2 k (hH.closeOff _ _) d hr
    exact ⟨h2, h1⟩
  warpAfterOverview := by
    intro s tf dw a k d h
    have h' : WF (.warp s tf dw a) := h
    refine ⟨⟨h'.1, ?_⟩, sim_warpAfterOverview s h'.1 tf h'.2 dw d a k⟩
    rw [Affine.det_mul, Affine.det_mul]
    exact mul_ne_zero (mul_ne_zero (det_ovScale k) h'.2) (Affine.det_inv _ (det_ovScale k))
  dequantOverview := fun {s q dq k d} h => ⟨h, sim_dequantOverview s dq d k q⟩
  ov0 := fun {s d} _ => sim_ov0 s d
  fuseOv := fun {s k1 d1 k d} h => ⟨h, sim_fuseOv s h k1 k d1 d⟩
  dequantWarp := by
    intro s tf dw a q d h
    have h' : WF (.warp s tf dw a) := h
    exact ⟨⟨h'.1, h'.2⟩, sim_dequantWarp s h'.1 tf h'.2 dw d a q⟩

end Tree
end Verif
