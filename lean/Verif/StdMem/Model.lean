import Verif.Basic

/-!
# `std/mem.zc`: model

Allocation, clearing, copying and swapping of objects, and `Box`.  Memory is a list of blocks; a
block is its bytes, each of them unset after `malloc`, or `none` once it was freed.  A pointer is
null or a block with an offset.  The size of the element type is a parameter (`sz`).  `size_t` has
64 bits.  An access outside a block or to a freed one is `ub`.
-/

namespace Verif.StdMem
open Verif

/-- a byte -/
abbrev Byte := UInt8

/-- the heap -/
structure Heap where
  blocks : List (Option (List (Option Byte)))

/-- pointers -/
abbrev Ptr := Option (Nat × Nat)

/-- a `size_t` -/
def szt (n : Nat) : Nat := n % 2 ^ 64

/-- the bytes of a block that is not freed -/
def block (h : Heap) (k : Nat) : Res (List (Option Byte)) :=
  match h.blocks[k]? with
  | some (some b) => .ok b
  | _ => .ub

/-- reads `n` bytes -/
def read (h : Heap) (p : Ptr) (n : Nat) : Res (List (Option Byte)) :=
  match p with
  | none => .ub
  | some (k, o) => do
      let b ← block h k
      if o + n ≤ b.length then .ok ((b.drop o).take n) else .ub

/-- writes bytes -/
def write (h : Heap) (p : Ptr) (d : List (Option Byte)) : Res Heap :=
  match p with
  | none => .ub
  | some (k, o) => do
      let b ← block h k
      if o + d.length ≤ b.length then
        .ok ⟨h.blocks.set k (some (b.take o ++ d ++ b.drop (o + d.length)))⟩
      else .ub

/-- `malloc` and `calloc` with the bytes of the new block; `got` tells whether there is memory -/
def newBlock (got : Bool) (h : Heap) (b : List (Option Byte)) : Heap × Ptr :=
  if got then (⟨h.blocks ++ [some b]⟩, some (h.blocks.length, 0)) else (h, none)

/-- `alloc<T>()` (std/mem.zc:2-4) -/
def alloc (sz : Nat) (got : Bool) (h : Heap) : Heap × Ptr := newBlock got h (List.replicate sz none)

/-- `zalloc<T>()` (std/mem.zc:6-8) -/
def zalloc (sz : Nat) (got : Bool) (h : Heap) : Heap × Ptr := newBlock got h (List.replicate sz (some 0))

/-- `alloc_n<T>(n)` (std/mem.zc:10-12): `malloc(sizeof(T) * n)` -/
def allocN (sz n : Nat) (got : Bool) (h : Heap) : Heap × Ptr :=
  newBlock got h (List.replicate (szt (sz * n)) none)

/-- `mem_zero<T>(ptr, count)` (std/mem.zc:56-58): `memset(ptr, 0, sizeof(T) * count)` -/
def memZero (sz : Nat) (h : Heap) (p : Ptr) (count : Nat) : Res Heap :=
  write h p (List.replicate (szt (sz * count)) (some 0))

/-- the ranges of `n` bytes share none -/
def apart (p q : Ptr) (n : Nat) : Bool :=
  match p, q with
  | some (k, o), some (l, r) => k != l || (o + n ≤ r || r + n ≤ o)
  | _, _ => true

/-- `mem_copy<T>(dst, src, count)` (std/mem.zc:60-62): `memcpy`, undefined if the ranges overlap
(ISO C 7.26.2.1) -/
def memCopy (sz : Nat) (h : Heap) (dst src : Ptr) (count : Nat) : Res Heap :=
  let n := szt (sz * count)
  if apart dst src n then do
    let d ← read h src n
    write h dst d
  else .ub

/-- `swap<T>(a, b)` (std/mem.zc:64-68).  `*a = *b` of objects that overlap without being the same is
undefined (ISO C 6.5.17.2). -/
def swap (sz : Nat) (h : Heap) (a b : Ptr) : Res Heap := do
  let tmp ← read h a sz
  let d ← read h b sz
  if a = b ∨ apart a b sz then do
    let h ← write h a d
    write h b tmp
  else .ub

/-- `struct Box<T>` (std/mem.zc:24-26) -/
structure Box where
  ptr : Ptr
  deriving DecidableEq

/-- `Box::new` (std/mem.zc:29-31) -/
def boxNew (sz : Nat) (got : Bool) (h : Heap) : Heap × Box :=
  let (h, p) := zalloc sz got h
  (h, ⟨p⟩)

/-- `Box::from_ptr` (std/mem.zc:33-35) -/
def boxFrom (p : Ptr) : Box := ⟨p⟩

/-- `Box::get` (std/mem.zc:37-39) -/
def boxGet (b : Box) : Ptr := b.ptr

/-- `Box::is_null` (std/mem.zc:41-43) -/
def boxNull (b : Box) : Bool := b.ptr.isNone

/-- C `free`: of null nothing, of the start of a block that is not freed the block is freed,
otherwise undefined -/
def cfree (h : Heap) : Ptr → Res Heap
  | none => .ok h
  | some (k, 0) => do
      let _ ← block h k
      .ok ⟨h.blocks.set k none⟩
  | _ => .ub

/-- `Box::free` (std/mem.zc:45-49): the pointer is kept -/
def boxFree (h : Heap) (b : Box) : Res (Heap × Box) :=
  if b.ptr ≠ none then do
    let h ← cfree h b.ptr
    .ok (h, b)
  else .ok (h, b)

/-! ## What is expected -/

namespace Spec

/-- the byte at a place, if the place is in a block that is not freed -/
def byteAt (h : Heap) (q : Nat × Nat) : Option (Option Byte) :=
  match h.blocks[q.1]? with
  | some (some b) => b[q.2]?
  | _ => none

/-- place `q` is one of the `n` bytes from `p` on -/
def Within (q p : Nat × Nat) (n : Nat) : Prop := q.1 = p.1 ∧ p.2 ≤ q.2 ∧ q.2 < p.2 + n

instance (q p : Nat × Nat) (n : Nat) : Decidable (Within q p n) := by unfold Within; infer_instance

/-- all the `n` bytes from `p` on are there -/
def Valid (h : Heap) (p : Nat × Nat) (n : Nat) : Prop :=
  ∃ b, h.blocks[p.1]? = some (some b) ∧ p.2 + n ≤ b.length

/-- there are no blocks of 2^64 bytes or more -/
def Small (h : Heap) : Prop := ∀ b, some b ∈ h.blocks → b.length < 2 ^ 64

/-- the two ranges are the same or have no byte in common -/
def Separate (p q : Nat × Nat) (n : Nat) : Prop := p = q ∨ ∀ r, ¬ (Within r p n ∧ Within r q n)

end Spec

end Verif.StdMem
