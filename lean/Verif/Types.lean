/-
The element types of arrays: which `dtype` the array of an operation tree has, and what it decides.

Simplifications.  Types are the boolean, integer and floating point types of numpy; masked arrays are not described
(`Border.lean` has them).  The type of the array of a file, the type named by the `orig_dtype` of a quantization
and `np.result_type` of several types are given.  `kwimage.warp_affine` and `kwimage.imresize` are taken to keep
the type of an array, and the reading of overviews, too.
-/
import Verif.Raster

namespace Verif
namespace Tree

open Helpers Node

/-- Numeric types of numpy. -/
inductive Elem where
  | bool | u8 | u16 | u32 | u64 | i8 | i16 | i32 | i64 | f16 | f32 | f64
deriving DecidableEq, Repr

/-- The property `dtype.kind`: 'b', 'u', 'i' or 'f'. -/
inductive ElemKind where
  | b | u | i | f
deriving DecidableEq, Repr

def Elem.kind : Elem → ElemKind
  | .bool => .b
  | .u8 | .u16 | .u32 | .u64 => .u
  | .i8 | .i16 | .i32 | .i64 => .i
  | .f16 | .f32 | .f64 => .f

def Elem.bits : Elem → Nat
  | .bool | .u8 | .i8 => 8
  | .u16 | .i16 | .f16 => 16
  | .u32 | .i32 | .f32 => 32
  | .u64 | .i64 | .f64 => 64

/-- `dtype.kind == 'f'`. -/
def Elem.float (t : Elem) : Bool := decide (t.kind = .f)

/-- The smallest float type that holds the integers of a number of bits. -/
def floatFor (bits : Nat) : Nat := if bits = 8 then 16 else if bits = 16 then 32 else 64

/-- The float type with a number of bits. -/
def floatOf (bits : Nat) : Elem := if bits = 16 then .f16 else if bits = 32 then .f32 else .f64

/-- The signed type with twice as many bits, a float if there is none. -/
def signedAbove (bits : Nat) : Elem :=
  if bits = 8 then .i16 else if bits = 16 then .i32 else if bits = 32 then .i64 else .f64

/-- `np.promote_types`. -/
def promote (s t : Elem) : Elem :=
  match s.kind, t.kind with
  | .b, _ => t
  | _, .b => s
  | .f, .f => if s.bits < t.bits then t else s
  | .f, _ => floatOf (max s.bits (floatFor t.bits))
  | _, .f => floatOf (max t.bits (floatFor s.bits))
  | .u, .u => if s.bits < t.bits then t else s
  | .i, .i => if s.bits < t.bits then t else s
  | .u, .i => if s.bits < t.bits then t else signedAbove s.bits
  | .i, .u => if t.bits < s.bits then s else signedAbove t.bits

/-- What decides types besides the tree. -/
structure Np where
  /-- the type of the array of a file or an in-memory array -/
  file : Nat → Elem
  /-- the type of the result of `helpers.dequantize`, helpers.py:457 and 480-481 -/
  orig : Quantization → Elem
  /-- `np.result_type`, used by `np.concatenate` -/
  result : List Elem → Elem

mutual
/-- `dtype` of the array of a tree: delayed_leafs.py:389-399 for NaN images, delayed_nodes.py:781-792 for concats,
2558-2570 for dequantizations. -/
def elem (N : Np) : Node → Elem
  | .leaf l => if l.nan then .f64 else N.file l.id
  | .concat ps _ => N.result (elemL N ps)
  | .warp s _ _ _ => elem N s
  | .crop s _ _ _ _ _ => elem N s
  | .overview s _ _ => elem N s
  | .dequant _ q _ => N.orig q
def elemL (N : Np) : List Node → List Elem
  | [] => []
  | p :: ps => elem N p :: elemL N ps
end

variable {V : Type}

mutual
/-- `_finalize`, where what is outside of the repository works with floats (`E true`) or with integers (`E false`):
`DelayedWarp._finalize` chooses the border by the type of the array, delayed_nodes.py:1792-1800. -/
def finT (N : Np) (E : Bool → Env V) : Node → Py (Img V)
  | .leaf l => fin (E (elem N (.leaf l)).float) (.leaf l)
  | .concat ps _ =>
    match finTL N E ps with
    | .error e => .error e
    | .ok as => catAll as
  | .warp s tf d a =>
    match finT N E s with
    | .error e => .error e
    | .ok i => finWarp (E (elem N s).float) tf d a i
  | .crop s y0 y1 x0 x1 c =>
    match finT N E s with
    | .error e => .error e
    | .ok i => (i.slice (some y0, some y1) (some x0, some x1)).select c
  | .overview s k _ =>
    match finT N E s with
    | .error e => .error e
    | .ok i => .ok ((E (elem N s).float).overview s k i)
  | .dequant s q _ =>
    match finT N E s with
    | .error e => .error e
    | .ok i => .ok { i with px := fun y x k => (E true).deq q (i.px y x k) }
def finTL (N : Np) (E : Bool → Env V) : List Node → Py (List (Img V))
  | [] => .ok []
  | p :: ps =>
    match finT N E p with
    | .error e => .error e
    | .ok a =>
      match finTL N E ps with
      | .error e => .error e
      | .ok as => .ok (a :: as)
end

/-- `finalize()`, delayed_base.py:405-449. -/
def finalizeT (H : Heur) (N : Np) (E : Bool → Env V) (fuel : Nat) (n : Node) : Py (Img V) :=
  match opt H fuel n with
  | .error e => .error e
  | .ok m => finT N E m

end Tree
end Verif
