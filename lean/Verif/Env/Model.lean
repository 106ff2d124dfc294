import Verif.Basic

/-!
# Environment variables: model

`Env::get`, `Env::get_dup`, `Env::set` and `Env::unset` (std/env.zc:24-57) over the helpers of
std/sys/env.zc:7-28.

Trusted: the C library as POSIX and Microsoft describe it.  `setenv` copies the value into fresh
memory; the text that `getenv` has returned is valid until the variable is set or unset (POSIX:
"the returned string pointer might be invalidated").  The table of variables is a function from names
to texts; memory never runs out.  Texts are lists of bytes without the terminating zero.
-/

namespace Verif.Env
open Verif

abbrev Byte := UInt8

/-- The environment and the memory: a variable points to a text, a text that is given up is `none` -/
structure World where
  vars : List Byte → Option Nat
  mem : Nat → Option (List Byte)
  next : Nat

/-- a name the C library accepts: not empty and without `=` -/
def nameOk (n : List Byte) : Bool := !n.isEmpty && !n.contains 61

/-- `getenv` -/
def getenv (w : World) (n : List Byte) : Option Nat := w.vars n

/-- the text of a variable is given up, and the variable removed -/
def remove (w : World) (n : List Byte) : World :=
  match w.vars n with
  | none => w
  | some i =>
      { w with
        vars := fun m => if m = n then none else w.vars m
        mem := fun j => if j = i then none else w.mem j }

/-- the variable gets fresh memory -/
def put (w : World) (n v : List Byte) : World :=
  let w := remove w n
  { vars := fun m => if m = n then some w.next else w.vars m
    mem := fun j => if j = w.next then some v else w.mem j
    next := w.next + 1 }

/-- `_putenv` on Windows: the text before the first `=` is the name, the rest the value; an empty value
removes the variable -/
def putenvWin (w : World) (s : List Byte) : World × Int :=
  let n := s.takeWhile (fun c => !decide (c = 61))
  let v := (s.dropWhile (fun c => !decide (c = 61))).drop 1
  if n.isEmpty || !s.contains 61 then (w, -1)
  else if v.isEmpty then (remove w n, 0)
  else (put w n v, 0)

/-- `_z_setenv` with `overwrite` (std/sys/env.zc:7-14): `setenv`, on Windows `_putenv_s` -/
def zSetenv (win : Bool) (w : World) (n v : List Byte) : World × Int :=
  if win then
    if !nameOk n then (w, 22)
    else if v.isEmpty then (remove w n, 0)
    else (put w n v, 0)
  else if nameOk n then (put w n v, 0)
  else (w, -1)

/-- `_z_unsetenv` (std/sys/env.zc:16-27): `unsetenv`, on Windows `_putenv` with the name and `=` -/
def zUnsetenv (win : Bool) (w : World) (n : List Byte) : World × Int :=
  if win then putenvWin w (n ++ [61])
  else if nameOk n then (remove w n, 0)
  else (w, -1)

/-- `Env::set` (std/env.zc:46-50): whether the result is `OK` -/
def set (win : Bool) (w : World) (n v : List Byte) : World × Bool :=
  let (w, r) := zSetenv win w n v
  (w, decide (r = 0))

/-- `Env::unset` (std/env.zc:52-56) -/
def unset (win : Bool) (w : World) (n : List Byte) : World × Bool :=
  let (w, r) := zUnsetenv win w n
  (w, decide (r = 0))

/-- `Env::get` (std/env.zc:25-32): the address `getenv` returns -/
def get (w : World) (n : List Byte) : Option Nat := getenv w n

/-- `Env::get_dup` (std/env.zc:34-44): a `String` of its own, in fresh memory -/
def getDup (w : World) (n : List Byte) : Res (World × Option Nat) :=
  match getenv w n with
  | none => .ok (w, none)
  | some i =>
      match w.mem i with
      | none => .ub
      | some v => .ok ({ w with mem := fun j => if j = w.next then some v else w.mem j, next := w.next + 1 }, some w.next)

/-- Calls of a program -/
inductive Op where
  | set (n v : List Byte)
  | unset (n : List Byte)
  | dup (n : List Byte)
  deriving DecidableEq

/-- one call -/
def step (win : Bool) (w : World) : Op → Res World
  | .set n v => .ok (set win w n v).1
  | .unset n => .ok (unset win w n).1
  | .dup n => do
      let (w, _) ← getDup w n
      .ok w

/-- a program -/
def run (win : Bool) : World → List Op → Res World
  | w, [] => .ok w
  | w, o :: os => do
      let w ← step win w o
      run win w os

/-- what a program reads through the result of `Env::get` -/
def value (w : World) (n : List Byte) : Option (List Byte) := (get w n).bind w.mem

namespace Spec

/-- A name of a variable -/
def IsName (n : List Byte) : Prop := n ≠ [] ∧ ∀ c ∈ n, c ≠ 61

instance (n : List Byte) : Decidable (IsName n) := inferInstanceAs (Decidable (_ ∧ _))

/-- The environment as a table -/
def stepT (t : List Byte → Option (List Byte)) : Op → List Byte → Option (List Byte)
  | .set n v => fun m => if IsName n ∧ m = n then some v else t m
  | .unset n => fun m => if IsName n ∧ m = n then none else t m
  | .dup _ => t

/-- An environment at the start of a program: distinct texts, all of them in memory -/
def Good (w : World) : Prop :=
  (∀ n i, w.vars n = some i → i < w.next ∧ (w.mem i).isSome = true) ∧
  (∀ n m i, w.vars n = some i → w.vars m = some i → n = m)

/-- the calls that give up the text of a variable -/
def Touches (n : List Byte) : Op → Prop
  | .set m _ => m = n
  | .unset m => m = n
  | .dup _ => False

end Spec

end Verif.Env
