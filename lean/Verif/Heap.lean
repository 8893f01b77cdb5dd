/-
`optimize` with its memo and with shared metadata, delayed_base.py:30-42 and the `optimize` methods of
delayed_nodes.py.

`copy.copy(self)` in the `optimize` methods copies a node but not its `meta` dictionary, and
`_opt_absorb_overview` assigns `meta['dsize']` of the dequantize nodes between a warp and an overview
(delayed_nodes.py:2380-2403).  These are the only assignments to the metadata of a node during `optimize`
that happen after its constructor, so the sizes of dequantize nodes are kept in a store, and a dequantize
node carries the number of its dictionary.  The child of a node is only assigned before the node is visible
to anyone else (to fresh copies), so it is a part of the tree.

The memo is a dictionary from objects to objects.  Which objects are the same is a parameter: the `k`-th
call and an earlier one get the same object if `ident` gives both the same number and the trees agree except
for the contents of the metadata of dequantize nodes.  Every pattern of sharing is given by some `ident`.
-/
import Verif.Opt

namespace Verif
namespace Tree

open Helpers Node

/-- The number of a metadata dictionary. -/
abbrev Cell := Nat

/-- A tree of objects. -/
abbrev Obj := Node (Quantization × Cell)

section
variable {Q : Type} [DecidableEq Q]

mutual
/-- Equality of trees. -/
def sameNode : Node Q → Node Q → Bool
  | .leaf l, .leaf l' => decide (l = l')
  | .concat ps d, .concat ps' d' => sameNodes ps ps' && decide (d = d')
  | .warp s tf d a, .warp s' tf' d' a' => sameNode s s' && decide (tf = tf' ∧ d = d' ∧ a = a')
  | .crop s y0 y1 x0 x1 c, .crop s' y0' y1' x0' x1' c' =>
    sameNode s s' && decide (y0 = y0' ∧ y1 = y1' ∧ x0 = x0' ∧ x1 = x1' ∧ c = c')
  | .overview s k d, .overview s' k' d' => sameNode s s' && decide (k = k' ∧ d = d')
  | .dequant s q d, .dequant s' q' d' => sameNode s s' && decide (q = q' ∧ d = d')
  | _, _ => false
def sameNodes : List (Node Q) → List (Node Q) → Bool
  | [], [] => true
  | p :: ps, p' :: ps' => sameNode p p' && sameNodes ps ps'
  | _, _ => false
end

mutual
theorem sameNode_iff : ∀ n m : Node Q, sameNode n m = true ↔ n = m
  | .leaf _, m => by cases m <;> simp [sameNode]
  | .concat ps d, m => by
    cases m <;> simp [sameNode]
    rename_i ps' d'
    simp [sameNodes_iff ps ps']
  | .warp s tf d a, m => by
    cases m <;> simp [sameNode]
    rename_i s' _ _ _
    simp [sameNode_iff s s']
  | .crop s y0 y1 x0 x1 c, m => by
    cases m <;> simp [sameNode]
    rename_i s' _ _ _ _ _
    simp [sameNode_iff s s']
  | .overview s k d, m => by
    cases m <;> simp [sameNode]
    rename_i s' _ _
    simp [sameNode_iff s s']
  | .dequant s q d, m => by
    cases m <;> simp [sameNode]
    rename_i s' _ _
    simp [sameNode_iff s s']
theorem sameNodes_iff : ∀ n m : List (Node Q), sameNodes n m = true ↔ n = m
  | [], m => by cases m <;> simp [sameNodes]
  | p :: ps, m => by
    cases m <;> simp [sameNodes]
    rename_i p' ps'
    rw [sameNode_iff p p', sameNodes_iff ps ps']
end

instance : DecidableEq (Node Q) := fun n m => decidable_of_iff _ (sameNode_iff n m)

end

/-- `meta['dsize']` by dictionary, the memo of the context and the number of calls of `optimize` so far. -/
structure St where
  sizes : List (Int × Int)
  memo : List ((Nat × Obj) × Obj)
  calls : Nat

/-- A computation that changes the state; the changes stay if an exception is raised. -/
abbrev Run (α : Type) := St → Py α × St

def ret {α : Type} (a : α) : Run α := fun st => (.ok a, st)

def lift {α : Type} (x : Py α) : Run α := fun st => (x, st)

def andRun {α β : Type} (x : Run α) (k : α → Run β) : Run β := fun st =>
  match x st with
  | (.error e, st') => (.error e, st')
  | (.ok a, st') => k a st'

/-- A computation on all elements of a list. -/
def mapRun {α β : Type} (f : α → Run β) : List α → Run (List β)
  | [] => ret []
  | x :: xs => andRun (f x) fun y => andRun (mapRun f xs) fun ys => ret (y :: ys)

mutual
/-- The tree as it is seen with the present contents of the dictionaries. -/
def refresh (sizes : List (Int × Int)) : Obj → Obj
  | .leaf l => .leaf l
  | .concat ps d => .concat (refreshL sizes ps) d
  | .warp s tf d a => .warp (refresh sizes s) tf d a
  | .crop s y0 y1 x0 x1 c => .crop (refresh sizes s) y0 y1 x0 x1 c
  | .overview s k d => .overview (refresh sizes s) k d
  | .dequant s q d => .dequant (refresh sizes s) q (sizes.getD q.2 d)
def refreshL (sizes : List (Int × Int)) : List Obj → List Obj
  | [] => []
  | p :: ps => refresh sizes p :: refreshL sizes ps
end

/-- `DelayedDequantize(sub, quantization)`, delayed_nodes.py:2545-2556, with a new dictionary. -/
def newDequant (s : Obj) (q : Quantization × Cell) : Run Obj := fun st =>
  (.ok (.dequant s (q.1, st.sizes.length) s.dsize), { st with sizes := st.sizes ++ [s.dsize] })

/-- `self.__class__(p, **kwargs)`, delayed_nodes.py:1052. -/
def reapplyM (op p : Obj) : Run Obj :=
  match op with
  | .dequant _ q _ => newDequant p q
  | op => lift (reapply op p)

/-- `_opt_push_under_concat`, delayed_nodes.py:1489-1502. -/
def pushUnderM (op : Obj) (ps : List Obj) : Run (Option Obj) :=
  andRun (mapRun (reapplyM op) ps) fun qs =>
    match mkConcat qs with
    | .ok c => ret (some c)
    | .error .coordinateCompat => ret none
    | .error e => lift (.error e)

/-- The last step of the `optimize` methods of dequantize and overview, delayed_nodes.py:2608-2613 and
3191-3196. -/
def finishM (rec : Obj → Run Obj) (new : Obj) : Run Obj :=
  match subOf new with
  | .error e => lift (.error e)
  | .ok (some (.concat ps _)) => andRun (pushUnderM new ps) fun o =>
    match o with
    | none => ret new
    | some p => rec p
  | .ok _ => ret new

/-- The dictionaries of the dequantize nodes of a chain. -/
def chainCells : List (Link (Quantization × Cell)) → List Cell
  | [] => []
  | .deq q _ :: ls => q.2 :: chainCells ls
  | .crop .. :: ls => chainCells ls

/-- The assignments of `_opt_absorb_overview`, delayed_nodes.py:2380-2403. -/
def absorbWrites (H : Heur) (s : Obj) (tf : Affine) : List (Cell × (Int × Int)) :=
  if !H.big tf then []
  else
    match look 4 s with
    | none => []
    | some (chain, osub, k, _) =>
      if (chain.filter Link.isCrop).length > 1 then []
      else
        match chain.getLast? with
        | some (.crop y0 y1 x0 x1 c) =>
          match warpAfterCrop osub (ovScale k) y0 y1 x0 x1 c with
          | .ok (some (inner, _)) => (chainCells chain.dropLast).map fun m => (m, inner.dsize)
          | _ => []
        | _ => (chainCells chain).map fun m => (m, osub.dsize)

/-- `meta['dsize'] = d` for a list of dictionaries. -/
def assign (sizes : List (Int × Int)) : List (Cell × (Int × Int)) → List (Int × Int)
  | [] => sizes
  | w :: ws => assign (sizes.set w.1 w.2) ws

/-- `_opt_absorb_overview`, delayed_nodes.py:2174-2420. -/
def absorbM (H : Heur) (s : Obj) (tf : Affine) (d : Int × Int) (a : Algo) : Run Obj := fun st =>
  (absorb H s tf d a, { st with sizes := assign st.sizes (absorbWrites H s tf) })

/-- `new.optimize()` without a context, delayed_nodes.py:2505: a new memo. -/
def ownMemo {α : Type} (x : Run α) : Run α := fun st =>
  match x { st with memo := [] } with
  | (r, st') => (r, { st' with memo := st.memo })

/-- `_opt_split_warp_overview`, delayed_nodes.py:2422-2516. -/
def splitM (H : Heur) (rec : Obj → Run Obj) (s : Obj) (tf : Affine) (d : Int × Int) (a : Algo) :
    Run (Option Obj) :=
  match s.numOverviews with
  | .error e => lift (.error e)
  | .ok none => ret none
  | .ok (some num) =>
    if num = 0 then ret none
    else if !H.canSplit tf then ret none
    else
      let nd := min num (H.downs tf)
      if nd = 0 then ret none
      else
        let ov := mkOverview s nd
        let res := tf * (ovScale nd).inv
        if H.closeId res then
          if ov.dsize ≠ d then
            match paddedCrop ov 0 d.2 0 d.1 ((0, 0), (0, 0)) with
            | .error e => lift (.error e)
            | .ok c => andRun (ownMemo (rec c)) fun r => ret (some r)
          else ret (some ov)
        else ret (some (.warp ov res d a.common))

/-- What `DelayedWarp.optimize` does with the result of `_opt_split_warp_overview`,
delayed_nodes.py:2130-2135. -/
def afterSplitM (H : Heur) (rec : Obj → Run Obj) (s : Obj) (tf : Affine) (d : Int × Int) (a : Algo)
    (o : Option Obj) : Run Obj :=
  match o with
  | none => absorbM H s tf d a
  | some new =>
    match subOf new with
    | .error e => lift (.error e)
    | .ok none => lift (.error .attributeError)
    | .ok (some x) => andRun (rec x) fun x' => rec (setSub new x')

/-- A `DelayedNans` leaf. -/
def nanOf (s : Obj) : Option Leaf :=
  match s with
  | .leaf l => if l.nan then some l else none
  | _ => none

/-- The rest of `DelayedWarp.optimize`, delayed_nodes.py:2105-2135. -/
def warpRestM (H : Heur) (rec : Obj → Run Obj) (s : Obj) (tf : Affine) (d : Int × Int) (a : Algo) :
    Run Obj :=
  if d = s.dsize ∧ H.negl a.noopEps tf = true then ret s
  else
    match s with
    | .concat ps _ => andRun (pushUnderM (.warp s tf d a) ps) fun o =>
      match o with
      | none => ret (.warp s tf d a)
      | some p => rec p
    | s =>
      match nanOf s with
      | some l => rec (nanLeaf l.id d l.names)
      | none => andRun (splitM H rec s tf d a) (afterSplitM H rec s tf d a)

/-- `DelayedWarp.optimize`, delayed_nodes.py:2049-2139. -/
def optWarpM (H : Heur) (rec : Obj → Run Obj) (s : Obj) (tf : Affine) (d : Int × Int) (a : Algo) :
    Run Obj :=
  andRun (rec s) fun s' =>
    match s' with
    | .warp s1 tf1 _ _ => warpRestM H rec s1 (tf * tf1) d a.common
    | s' => warpRestM H rec s' tf d a

/-- A crop of a concat, delayed_nodes.py:2790-2812. -/
def cropConcatM (rec : Obj → Run Obj) (ps : List Obj) (d : Int × Int) (y0 y1 x0 x1 : Int)
    (c : Option (List Nat)) : Run Obj :=
  andRun (match c with
    | none => ret (.concat ps d)
    | some c => andRun (lift (takeIdx (.concat ps d) c)) rec) fun taken =>
  andRun (lift (mkCrop taken (ints y0 y1 x0 x1) none)) fun cr =>
    match taken with
    | .concat qs _ => andRun (pushUnderM cr qs) fun o =>
      match o with
      | none => rec cr
      | some p => rec p
    | _ => rec cr

/-- The last step of `DelayedCrop.optimize`, delayed_nodes.py:2790-2820. -/
def finishCropM (rec : Obj → Run Obj) (new : Obj) : Run Obj :=
  match new with
  | .crop (.concat ps d) y0 y1 x0 x1 c => cropConcatM rec ps d y0 y1 x0 x1 c
  | new => finishM rec new

/-- The rest of `DelayedCrop.optimize`, delayed_nodes.py:2774-2820. -/
def cropRestM (rec : Obj → Run Obj) (s : Obj) (y0 y1 x0 x1 : Int) (c : Option (List Nat)) : Run Obj :=
  match s with
  | .warp x tf _ a =>
    if a.interp = .nearest then ret (.crop s y0 y1 x0 x1 c)
    else andRun (lift (warpAfterCrop x tf y0 y1 x0 x1 c)) fun o =>
      match o with
      | none => ret (.crop s y0 y1 x0 x1 c)
      | some (inner, tf') =>
        andRun (rec (.warp inner tf' (x1 - x0, y1 - y0) a.common)) fun r => finishCropM rec r
  | .dequant x q _ =>
    andRun (newDequant (.crop x y0 y1 x0 x1 c) q) fun m => andRun (rec m) fun r => finishCropM rec r
  | s => finishCropM rec (.crop s y0 y1 x0 x1 c)

/-- `DelayedCrop.optimize`, delayed_nodes.py:2740-2824. -/
def optCropM (rec : Obj → Run Obj) (s : Obj) (y0 y1 x0 x1 : Int) (c : Option (List Nat)) : Run Obj :=
  andRun (rec s) fun s' =>
  andRun (lift (match s' with
    | .crop s1 iy0 iy1 ix0 ix1 ic => fuseCrops s1 iy0 iy1 ix0 ix1 ic y0 y1 x0 x1 c
    | s' => .ok (.crop s' y0 y1 x0 x1 c))) fun n =>
    match n with
    | .crop s2 y0' y1' x0' x1' c' =>
      match nanOf s2 with
      | some l => andRun (lift (nanCrop l y0 y1 x0 x1 c)) rec
      | none => cropRestM rec s2 y0' y1' x0' x1' c'
    | n => ret n

/-- The rest of `DelayedOverview.optimize`, delayed_nodes.py:3180-3196. -/
def overviewRestM (H : Heur) (rec : Obj → Run Obj) (s : Obj) (k : Int) (d : Int × Int) : Run Obj :=
  if k = 0 then finishM rec s
  else
    match s with
    | .crop x y0 y1 x0 x1 c =>
      andRun (lift (cropAfterOverview H x y0 y1 x0 x1 c k)) fun m =>
      andRun (rec m) fun r => finishM rec r
    | .warp x tf _ _ => andRun (rec (warpAfterOverview x tf k)) fun r => finishM rec r
    | .dequant x q _ =>
      andRun (newDequant (.overview x k d) q) fun m => andRun (rec m) fun r => finishM rec r
    | s => finishM rec (.overview s k d)

/-- `DelayedOverview.optimize`, delayed_nodes.py:3162-3200. -/
def optOverviewM (H : Heur) (rec : Obj → Run Obj) (s : Obj) (k : Int) (d : Int × Int) : Run Obj :=
  andRun (rec s) fun s' =>
    match s' with
    | .overview s1 k1 _ => overviewRestM H rec s1 (k1 + k) (mkOverview s1 (k1 + k)).dsize
    | s' => overviewRestM H rec s' k d

/-- `DelayedDequantize.optimize`, delayed_nodes.py:2572-2617.  The copy made in line 2597 shares the
dictionary, the node made by `_opt_dequant_before_other` (2619-2625) has a new one. -/
def optDequantM (rec : Obj → Run Obj) (s : Obj) (q : Quantization × Cell) (d : Int × Int) : Run Obj :=
  andRun (rec s) fun s' =>
    match s' with
    | .dequant _ _ _ => lift (.error .assertionError)
    | .warp x tf dw a =>
      andRun (newDequant x q) fun m => andRun (rec (.warp m tf dw a)) fun r => finishM rec r
    | s' => finishM rec (.dequant s' q d)

/-- `DelayedChannelConcat.optimize`, delayed_nodes.py:794-818: the sizes of the optimized parts are
compared when all of them are there. -/
def optConcatM (rec : Obj → Run Obj) (ps : List Obj) (d : Int × Int) : Run Obj :=
  andRun (mapRun rec ps) fun qs st =>
    match mkConcat (refreshL st.sizes qs) with
    | .ok c => (.ok c, st)
    | .error .coordinateCompat => (.ok (.concat (refreshL st.sizes ps) d), st)
    | .error e => (.error e, st)

/-- One level of `optimize`. -/
def optStepM (H : Heur) (rec : Obj → Run Obj) : Obj → Run Obj
  | .leaf l => ret (.leaf l)
  | .concat ps d => optConcatM rec ps d
  | .warp s tf d a => optWarpM H rec s tf d a
  | .crop s y0 y1 x0 x1 c => optCropM rec s y0 y1 x0 x1 c
  | .overview s k d => optOverviewM H rec s k d
  | .dequant s q d => optDequantM rec s q d

mutual
/-- The tree without the contents of the dictionaries. -/
def bare : Obj → Obj
  | .leaf l => .leaf l
  | .concat ps d => .concat (bareL ps) d
  | .warp s tf d a => .warp (bare s) tf d a
  | .crop s y0 y1 x0 x1 c => .crop (bare s) y0 y1 x0 x1 c
  | .overview s k d => .overview (bare s) k d
  | .dequant s q _ => .dequant (bare s) q (0, 0)
def bareL : List Obj → List Obj
  | [] => []
  | p :: ps => bare p :: bareL ps
end

/-- A number for the argument of the `k`-th call.  Objects with different numbers are different. -/
abbrev Ident := Nat → Obj → Nat

/-- `if self in memo: return memo[self]` … `memo[self] = new`. -/
def memoized (ident : Ident) (body : Obj → Run Obj) (x : Obj) : Run Obj := fun st =>
  let key := (ident st.calls (refresh st.sizes x), bare x)
  match st.memo.lookup key with
  | some r => (.ok (refresh st.sizes r), { st with calls := st.calls + 1 })
  | none =>
    match body (refresh st.sizes x) { st with calls := st.calls + 1 } with
    | (.error e, st') => (.error e, st')
    | (.ok r, st') => (.ok (refresh st'.sizes r), { st' with memo := (key, r) :: st'.memo })

/-- `optimize(ctx)`. -/
def optM (H : Heur) (ident : Ident) : Nat → Obj → Run Obj
  | 0, _ => lift (.error .recursion)
  | n + 1, x => memoized ident (optStepM H (optM H ident n)) x

/-- `optimize()` of a tree whose dictionaries have the given sizes: the result and the new contents of the
dictionaries. -/
def optimize (H : Heur) (ident : Ident) (fuel : Nat) (sizes : List (Int × Int)) (n : Obj) :
    Py Obj × List (Int × Int) :=
  match optM H ident fuel n ⟨sizes, [], 0⟩ with
  | (r, st) => (r, st.sizes)

end Tree
end Verif
