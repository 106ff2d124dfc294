import Verif.Str.Model

/-!
# Model of `std/process.zc`

`Command` builds a command line that the shell runs (`system`, `popen`), and `output` collects what
it writes.  The child is a parameter: the bytes it writes and how it ends.  Simplified: `popen`
succeeds; texts are below 2^63 bytes.
-/

namespace Verif.Process
open Verif Verif.Str

/-- `struct Command` (std/process.zc:23-26). -/
structure Command where
  program : Str
  args : List Str

/-- The arguments of the command line (std/process.zc:44-50). -/
def addArgs : List Str → Str → Res Str
  | [], s => .ok s
  | a :: as, s => do
    let space ← new (cmem [32])
    let s ← append s space
    let s ← append s a
    addArgs as s

/-- `Command::_build_cmd` (std/process.zc:41-53). -/
def build (c : Command) : Res Str := do
  let s ← substring c.program 0 (length c.program)
  addArgs c.args s

/-- The bytes `fgets(buf, 1024, fp)` takes from the stream (std/sys/process.zc:24-26): up to and
including a newline, at most `n` (1023). -/
def fgets : Nat → List Byte → List Byte × List Byte
  | 0, s => ([], s)
  | _, [] => ([], [])
  | n + 1, c :: s =>
    if c = 10 then ([c], s)
    else ((c :: (fgets n s).1), (fgets n s).2)

theorem fgets_length : ∀ (n : Nat) (s : List Byte), (fgets n s).1.length + (fgets n s).2.length = s.length
  | 0, s => by simp [fgets]
  | n + 1, [] => by simp [fgets]
  | n + 1, c :: s => by
      rw [fgets]
      split
      · simp; omega
      · have := fgets_length n s
        simp only [List.length_cons]; omega

theorem fgets_ne (n : Nat) (c : Byte) (s : List Byte) : (fgets (n + 1) (c :: s)).1 ≠ [] := by
  rw [fgets]; split <;> simp

/-- The loop of `Command::output` (std/process.zc:73-80): every chunk is copied as a C string. -/
def collect (s : List Byte) (out : Str) : Res Str :=
  match s with
  | [] => .ok out
  | c :: s => do
    let chunk ← new (cmem (fgets 1023 (c :: s)).1)
    let out ← append out chunk
    collect (fgets 1023 (c :: s)).2 out
termination_by s.length
decreasing_by
  have h1 := fgets_length 1023 (c :: s)
  have h2 := fgets_ne 1022 c s
  have h3 : (fgets 1023 (c :: s)).1.length ≠ 0 := fun h => h2 (List.length_eq_zero_iff.1 h)
  simp only [List.length_cons] at h1 ⊢
  omega

/-- How the child ended. -/
inductive End where
  | exit (code : Nat)
  | signal (n : Nat)
  deriving DecidableEq, Repr

/-- What `pclose` and `system` return: the wait status of POSIX in the layout of Linux (`WEXITSTATUS`
is `(status & 0xff00) >> 8`, `WTERMSIG` is `status & 0x7f`). -/
def waitStatus : End → Nat
  | .exit n => n % 256 * 256
  | .signal n => n % 128

/-- `Command::output` (std/process.zc:55-93): standard output and `exit_code`. -/
def output (written : List Byte) (e : End) : Res (Str × Nat) := do
  let out ← new (cmem [])
  let out ← collect written out
  .ok (out, waitStatus e)

/-- `Command::status` (std/process.zc:95-100). -/
def status (e : End) : Nat := waitStatus e

namespace Spec

/-- Bytes that mean nothing to the shell (POSIX XCU 2.2): no quotes, no blanks, no operators, no
expansions.  -/
def Plain (w : List Byte) : Prop :=
  w ≠ [] ∧ ∀ c ∈ w, (48 ≤ c ∧ c ≤ 57) ∨ (65 ≤ c ∧ c ≤ 90) ∨ (97 ≤ c ∧ c ≤ 122) ∨
    c = 45 ∨ c = 46 ∨ c = 47 ∨ c = 95 ∨ c = 43 ∨ c = 44 ∨ c = 58 ∨ c = 64 ∨ c = 37

/-- The fields of a command line in which every word is plain (POSIX XCU 2.3): words are separated by
blanks. -/
inductive Fields : List Byte → List (List Byte) → Prop where
  | one {w} : Plain w → Fields w [w]
  | more {w r ws} : Plain w → Fields r ws → Fields (w ++ 32 :: r) (w :: ws)
  | blank {r ws} : Fields r ws → Fields (32 :: r) ws
  | blankEnd {r ws} : Fields r ws → Fields (r ++ [32]) ws

/-- The exit code a parent sees. -/
def exitCode : End → Option Nat
  | .exit n => some (n % 256)
  | .signal _ => none

end Spec
end Verif.Process
