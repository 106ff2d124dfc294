import Verif.Basic

/-!
# The compiler's allocator

Transcription of `arena_alloc_raw`, `xmalloc`, `xcalloc`, `xrealloc` and `xstrdup`
(/repo/src/utils/utils.c:7-91).  `size_t` arithmetic is modulo 2^64.  The C library's `malloc`
always succeeds (otherwise the compiler ends, /repo/src/utils/utils.c:31-34) and returns
memory of indeterminate contents, disjoint from all other memory and aligned to 16 bytes; a
request for `sizeof(ArenaBlock) + block_size` that wraps around is undefined here.  `free`
is a macro that does nothing (/repo/src/zprep.h:17).

A pointer is a block number (in order of creation) and an offset into its `data`, which
starts 24 bytes after the 16-byte aligned start of the block.
-/

namespace Verif.CArena

abbrev Byte := UInt8

/-- `SIZE_MAX + 1`. -/
def W : Nat := 2 ^ 64

/-- `ARENA_BLOCK_SIZE` (/repo/src/utils/utils.c:8). -/
def blockSize : Nat := 1024 * 1024

/-- `ArenaBlock` (/repo/src/utils/utils.c:10-16). -/
structure Block where
  used : Nat
  cap : Nat
  data : Mem Byte

/-- A pointer into the data of a block. -/
structure Ptr where
  blk : Nat
  off : Nat
  deriving DecidableEq, Repr

/-- All blocks in order of creation; the last is `current_block`. -/
abbrev Arena := List Block

/-- Writing cells at a pointer (`memcpy`, `memset` or single stores). -/
def writeAt (a : Arena) (p : Ptr) (xs : Mem Byte) : Res Arena :=
  match a[p.blk]? with
  | none => .ub
  | some b => do
      let d ← Mem.memcpy b.data p.off xs 0 xs.length
      .ok (a.set p.blk { b with data := d })

/-- Reading `n` cells at a pointer (for `memcpy`; indeterminate cells are copied as they are). -/
def readAt (a : Arena) (p : Ptr) (n : Nat) : Res (Mem Byte) :=
  match a[p.blk]? with
  | none => .ub
  | some b => if p.off + n ≤ b.data.length then .ok ((b.data.drop p.off).take n) else .ub

/-- Byte `i` of a `size_t` in memory (little endian). -/
def leByte (n i : Nat) : Byte := UInt8.ofNat (n / 256 ^ i)

/-- A `size_t` in memory. -/
def le8 (n : Nat) : Mem Byte := (List.range 8).map fun i => some (leByte n i)

/-- Reading a `size_t` back from its bytes. -/
def fromLe : Mem Byte → Res Nat
  | [] => .ok 0
  | some b :: m => do
      let r ← fromLe m
      .ok (b.toNat + 256 * r)
  | none :: _ => .ub

/-- `(x + 7) & ~7` on `size_t`. -/
def roundUp (x : Nat) : Nat :=
  let y := (x + 7) % W
  y - y % 8

/-- A new current block (/repo/src/utils/utils.c:27-40). -/
def grow (a : Arena) (actual : Nat) : Res Arena :=
  let bs := if actual > blockSize then actual else blockSize
  if 24 + bs < W then .ok (a ++ [⟨0, bs, Mem.malloc bs⟩]) else .ub

/-- The test `!current_block || current_block->used + actual_size > current_block->cap`
(/repo/src/utils/utils.c:25) and the growth. -/
def room (a : Arena) (actual : Nat) : Res Arena :=
  match a.getLast? with
  | none => grow a actual
  | some b => if (b.used + actual) % W > b.cap then grow a actual else .ok a

/-- `arena_alloc_raw` (/repo/src/utils/utils.c:20-47). -/
def allocRaw (a : Arena) (size : Nat) : Res (Arena × Ptr) := do
  let actual := roundUp ((size + 8) % W)
  let a ← room a actual
  match a[a.length - 1]? with
  | none => .ub
  | some b => do
      let a := a.set (a.length - 1) { b with used := (b.used + actual) % W }
      let a ← writeAt a ⟨a.length - 1, b.used⟩ (le8 size)
      .ok (a, ⟨a.length - 1, b.used + 8⟩)

/-- `xcalloc` (/repo/src/utils/utils.c:56-62). -/
def xcalloc (a : Arena) (n size : Nat) : Res (Arena × Ptr) := do
  let total := n * size % W
  let (a, p) ← allocRaw a total
  let a ← writeAt a p (List.replicate total (some 0))
  .ok (a, p)

/-- `xrealloc` of a pointer that is not null (/repo/src/utils/utils.c:64-79). -/
def xrealloc (a : Arena) (p : Ptr) (n : Nat) : Res (Arena × Ptr) := do
  let h ← readAt a ⟨p.blk, p.off - 8⟩ 8
  let old ← fromLe h
  if n ≤ old then .ok (a, p)
  else do
    let (a, q) ← allocRaw a n
    let xs ← readAt a p old
    let a ← writeAt a q xs
    .ok (a, q)

/-- `xstrdup` (/repo/src/utils/utils.c:80-91) of a text. -/
def xstrdup (a : Arena) (s : List Byte) : Res (Arena × Ptr) := do
  let (a, p) ← allocRaw a (s.length + 1)
  let a ← writeAt a p (s.map some)
  let a ← writeAt a ⟨p.blk, p.off + s.length⟩ [some 0]
  .ok (a, p)

/-- Operations of a client that remembers the pointers it got: the `k`-th pointer is named
by `k`. -/
inductive Op where
  | malloc (n : Nat)
  | calloc (n size : Nat)
  | strdup (s : List Byte)
  | realloc (k n : Nat)
  | write (k i : Nat) (b : Byte)
  deriving DecidableEq, Repr

/-- The arena and the client's pointers. -/
structure St where
  arena : Arena
  ptrs : List Ptr

/-- One operation. -/
def step (s : St) : Op → Res St
  | .malloc n => do
      let (a, p) ← allocRaw s.arena n
      .ok ⟨a, s.ptrs ++ [p]⟩
  | .calloc n m => do
      let (a, p) ← xcalloc s.arena n m
      .ok ⟨a, s.ptrs ++ [p]⟩
  | .strdup t => do
      let (a, p) ← xstrdup s.arena t
      .ok ⟨a, s.ptrs ++ [p]⟩
  | .realloc k n =>
      match s.ptrs[k]? with
      | none => .ub
      | some p => do
          let (a, q) ← xrealloc s.arena p n
          .ok ⟨a, s.ptrs.set k q⟩
  | .write k i b =>
      match s.ptrs[k]? with
      | none => .ub
      | some p => do
          let a ← writeAt s.arena ⟨p.blk, p.off + i⟩ [some b]
          .ok ⟨a, s.ptrs⟩

/-- A history. -/
def run (s : St) : List Op → Res St
  | [] => .ok s
  | o :: os => do
      let s' ← step s o
      run s' os

namespace Spec

/-- An object: its bytes, `none` where nothing has been written yet. -/
abbrev Obj := List (Option Byte)

/-- The objects a client holds after an operation. -/
def step (os : List Obj) : Op → List Obj
  | .malloc n => os ++ [List.replicate n none]
  | .calloc n m => os ++ [List.replicate (n * m) (some 0)]
  | .strdup t => os ++ [t.map some ++ [some 0]]
  | .realloc k n => os.modify k fun o => o ++ List.replicate (n - o.length) none
  | .write k i b => os.modify k fun o => o.set i (some b)

/-- The objects after a history. -/
def run (os : List Obj) (ops : List Op) : List Obj := ops.foldl step os

/-- What a correct client may ask: sizes below 2^62, existing pointers, writes inside the
object. -/
def OpOk (os : List Obj) : Op → Prop
  | .malloc n => n < 2 ^ 62
  | .calloc n m => n * m < 2 ^ 62
  | .strdup t => t.length + 1 < 2 ^ 62
  | .realloc k n => k < os.length ∧ n < 2 ^ 62
  | .write k i _ => ∃ o, os[k]? = some o ∧ i < o.length

/-- Every operation of the history is allowed. -/
def OpsOk : List Obj → List Op → Prop
  | _, [] => True
  | os, o :: r => OpOk os o ∧ OpsOk (step os o) r

end Spec

end Verif.CArena
