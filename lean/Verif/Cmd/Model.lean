import Verif.Str.Lemmas
import Verif.Probe

/-!
# Command builder and argument list

Transcription of `CmdBuilder` and `ArgList` (/repo/src/utils/cmd.c:148-312).  Sizes are
unbounded naturals (text far below 2^63 bytes); `xmalloc`/`xrealloc` always succeed (out of
memory ends the compiler, /repo/src/utils/utils.c:31-34).
-/

namespace Verif.Cmd

open Verif.Str (Byte strlen)

/-- `CmdBuilder` (/repo/src/utils/cmd.h). -/
structure Cmd where
  buf : Mem Byte
  len : Nat
  cap : Nat
  deriving DecidableEq, Repr

/-- `cmd_init` (/repo/src/utils/cmd.c:148-154). -/
def init : Res Cmd := do
  let b ← Mem.store (Mem.malloc 1024) 0 0
  .ok ⟨b, 0, 1024⟩

/-- `while (cmd->len + needed >= cmd->cap) cmd->cap *= 2;` (/repo/src/utils/cmd.c:160-163);
`fuel` bounds the iterations, running out is reported as `none`. -/
def growCap : Nat → Nat → Nat → Option Nat
  | 0, _, _ => none
  | f + 1, need, cap => if need ≥ cap then growCap f need (cap * 2) else some cap

/-- `ensure_cap` (/repo/src/utils/cmd.c:156-167).  The fuel is enough for every capacity above
zero; a loop that does not end is reported as `panic`. -/
def ensureCap (c : Cmd) (needed : Nat) : Res Cmd :=
  if c.len + needed ≥ c.cap then
    match growCap (c.len + needed + 1) (c.len + needed) c.cap with
    | some cap => .ok ⟨Mem.realloc c.buf cap, c.len, cap⟩
    | none => .panic
  else .ok c

/-- `strcat(dst, src)`: finds the end of both texts and copies with the terminator. -/
def strcat (dst src : Mem Byte) : Res (Mem Byte) := do
  let n ← strlen dst
  let m ← strlen src
  Mem.memcpy dst n src 0 (m + 1)

/-- `if (cmd->len > 0 && cmd->buf[cmd->len - 1] != ' ') { strcat(" "); len++ }`
(/repo/src/utils/cmd.c:181-185, 207-211). -/
def space (c : Cmd) : Res Cmd :=
  if c.len > 0 then do
    let b ← Mem.load c.buf (c.len - 1)
    if b ≠ 32 then do
      let buf ← strcat c.buf (Str.cmem [32])
      .ok ⟨buf, c.len + 1, c.cap⟩
    else .ok c
  else .ok c

/-- `cmd_add` (/repo/src/utils/cmd.c:169-189); the null pointer is `none`. -/
def add (c : Cmd) (s : Option (Mem Byte)) : Res Cmd :=
  match s with
  | none => .ok c
  | some str => do
      let b ← Mem.load str 0
      if b = 0 then .ok c
      else do
        let len ← strlen str
        let c ← ensureCap c (len + 1 + 1)
        let c ← space c
        let buf ← strcat c.buf str
        .ok ⟨buf, c.len + len, c.cap⟩

/-- `vsnprintf(buf + len, cap - len, fmt, ...)` whose full output is `out`: at most
`room - 1` bytes and a terminator (ISO C 7.21.6.12). -/
def vsnprintf (buf : Mem Byte) (off room : Nat) (out : List Byte) : Res (Mem Byte) :=
  if room = 0 then .ok buf
  else Mem.memcpy buf off (Str.cmem (out.take (room - 1))) 0 ((out.take (room - 1)).length + 1)

/-- `cmd_add_fmt` (/repo/src/utils/cmd.c:191-219) for a format whose output is `out`. -/
def addFmt (c : Cmd) (out : List Byte) : Res Cmd := do
  let c ← ensureCap c (out.length + 1 + 1)
  let c ← space c
  let buf ← vsnprintf c.buf c.len (c.cap - c.len) out
  .ok ⟨buf, c.len + out.length, c.cap⟩

/-! ## Argument list -/

/-- `ArgList` (/repo/src/utils/cmd.h): a cell holds a string (already copied by `xstrdup`)
or the null pointer. -/
structure Args where
  args : Mem (Option (List Byte))
  count : Nat
  cap : Nat

/-- `arg_list_init` (/repo/src/utils/cmd.c:234-239). -/
def argInit : Args := ⟨Mem.malloc 32, 0, 32⟩

/-- `arg_list_add` (/repo/src/utils/cmd.c:241-254). -/
def argAdd (l : Args) (a : Option (List Byte)) : Res Args :=
  match a with
  | none => .ok l
  | some s => do
      let l := if l.count + 1 ≥ l.cap then ⟨Mem.realloc l.args (l.cap * 2), l.count, l.cap * 2⟩ else l
      let m ← Mem.store l.args l.count (some s)
      let m ← Mem.store m (l.count + 1) none
      .ok ⟨m, l.count + 1, l.cap⟩

/-- What `execvp` reads: the strings up to the null pointer. -/
def readArgs : Mem (Option (List Byte)) → Res (List (List Byte))
  | some (some s) :: m => do
      let r ← readArgs m
      .ok (s :: r)
  | some none :: _ => .ok []
  | _ => .ub

namespace Spec

/-- Operations on a builder. -/
inductive Op where
  | add (s : Option (List Byte))
  | fmt (out : List Byte)
  deriving DecidableEq, Repr

/-- A blank between what is there and what is added, unless there is nothing yet or it
already ends in a blank. -/
def sep (t : List Byte) : List Byte := if t = [] ∨ t.getLast? = some 32 then [] else [32]

/-- The text after an operation. -/
def step (t : List Byte) : Op → List Byte
  | .add none => t
  | .add (some s) => if s = [] then t else t ++ sep t ++ s
  | .fmt out => t ++ sep t ++ out

/-- The text after a history. -/
def run (t : List Byte) (ops : List Op) : List Byte := ops.foldl step t

/-- Arguments are C strings. -/
def OpOk : Op → Prop
  | .add none => True
  | .add (some s) => 0 ∉ s
  | .fmt out => 0 ∉ out

end Spec

/-- An operation of the history applied to the model. -/
def step (c : Cmd) : Spec.Op → Res Cmd
  | .add s => add c (s.map Str.cmem)
  | .fmt out => addFmt c out

/-- A history applied to the model. -/
def run (c : Cmd) : List Spec.Op → Res Cmd
  | [] => .ok c
  | o :: os => do
      let c' ← step c o
      run c' os

/-- A history of additions to an argument list. -/
def argRun (l : Args) : List (Option (List Byte)) → Res Args
  | [] => .ok l
  | a :: as => do
      let l' ← argAdd l a
      argRun l' as

end Verif.Cmd
