import Verif.Basic
import Verif.Probe
import Verif.Vec.Model

/-!
# Iterators of `std/vec.zc` and `std/slice.zc`, and the `for x in obj` loop

Model of `VecIter`, `VecIterRef` (std/vec.zc:41-69), `SliceIter` (std/slice.zc:14-24) and of the
loop the parser produces for `for x in obj { body }` (src/parser/parser_stmt.c:1271-1286):
`it = obj.iterator(); while (true) { opt = it.next(); if (opt.is_none()) break; x = opt.unwrap(); body }`.
The loop has a step budget; using it up is the outcome `hang`.
-/

namespace Verif.Iter
open Verif

variable {α σ : Type}

/-- `VecIter<T>` / `SliceIter<T>` (std/vec.zc:11-15, std/slice.zc:8-12): `data` is the block. -/
structure It (α : Type) where
  data : Mem α
  count : Nat
  idx : Nat
  deriving DecidableEq, Repr

/-- Reading a cell in the `Run` monad. -/
def loadR (m : Mem α) (i : Nat) : Run α :=
  match m[i]? with
  | some (some a) => .ok a
  | _ => .ub

/-- `VecIter::next` (std/vec.zc:42-49) and `SliceIter::next` (std/slice.zc:15-22). -/
def next (it : It α) : Run (Option α × It α) :=
  if it.idx < it.count then do
    let item ← loadR it.data it.idx
    .ok (some item, { it with idx := it.idx + 1 })
  else .ok (none, it)

/-- `Vec::iterator` (std/vec.zc:106-112). -/
def vecIterator (v : Vec.Vec α) : It α := ⟨v.buf, v.len, 0⟩

/-- `struct Slice<T>` (std/slice.zc:3-6). -/
structure Slice (α : Type) where
  data : Mem α
  len : Nat
  deriving DecidableEq, Repr

/-- `Slice::iterator` (std/slice.zc:40-46). -/
def sliceIterator (s : Slice α) : It α := ⟨s.data, s.len, 0⟩

/-- `Slice::get` and `Slice::at` (std/slice.zc:56-66). -/
def sliceGet (s : Slice α) (i : Nat) : Res (Option α) :=
  if i ≥ s.len then .ok none
  else do
    let x ← Mem.load s.data i
    .ok (some x)

/-- `for x in obj { body }` with the body as a state transformer that may `break`
(`Sum.inr`); src/parser/parser_stmt.c:1271-1286. -/
def forIn (body : σ → α → σ ⊕ σ) : Nat → It α → σ → Run σ
  | 0, _, _ => .hang
  | f + 1, it, s => do
    let (o, it) ← next it
    match o with
    | none => .ok s
    | some x =>
      match body s x with
      | .inl s => forIn body f it s
      | .inr s => .ok s

/-- `VecIterRef::next` (std/vec.zc:57-64): the result is the position of the element, `none`
for the null pointer. -/
def nextRef (count idx : Nat) : Option Nat × Nat :=
  if idx < count then (some idx, idx + 1) else (none, idx)

/-- `for x in &vec { *x = f(*x); }` (parser_stmt.c:1296-1302 selects `iter_ref`). -/
def forRef (f : α → α) (count : Nat) : Nat → Nat → Mem α → Run (Mem α)
  | 0, _, _ => .hang
  | n + 1, idx, m =>
    match nextRef count idx with
    | (none, _) => .ok m
    | (some p, idx) => do
      let a ← loadR m p
      if p < m.length then forRef f count n idx (m.set p (some (f a))) else .ub

namespace Spec

/-- Running a loop body over a list, stopping at a `break`. -/
def loop (body : σ → α → σ ⊕ σ) (s : σ) : List α → σ
  | [] => s
  | x :: xs =>
    match body s x with
    | .inl s => loop body s xs
    | .inr s => s

end Spec
end Verif.Iter
