import Verif.CJsonBuf.Model

/-!
# The command line on Windows

`quote_arg` and the part of `z_run_command` that builds a command line (/repo/src/platform/os.c:244-301), which the compiler uses to start the C compiler
and the program.  A program on Windows gets one text and splits it itself, by the rules of the C runtime; these rules are the specification.

Simplified: `malloc` and `strdup` succeed; what `CreateProcessA` does is not modelled.  A text is a list of bytes; arguments are C strings.
-/

namespace Verif.WinArgs

open Verif.CJsonBuf (wr strlen)

/-- The characters that make `strpbrk` find something (/repo/src/platform/os.c:247). -/
def special (c : Nat) : Bool := c == 32 || c == 9 || c == 10 || c == 11 || c == 34

/-- The loop of `quote_arg` (/repo/src/platform/os.c:265-272). -/
def quoteLoop (m : Mem Nat) : Nat → List Nat → Res (Mem Nat × Nat)
  | p, [] => .ok (m, p)
  | p, c :: s =>
      if c = 34 then Res.bind (wr m p [92]) fun m => Res.bind (wr m (p + 1) [c]) fun m => quoteLoop m (p + 2) s
      else Res.bind (wr m p [c]) fun m => quoteLoop m (p + 1) s

/-- `quote_arg` (/repo/src/platform/os.c:245-276): the block that is returned. -/
def quoteArg (a : List Nat) : Res (Mem Nat) :=
  if a.any special = false then .ok ((a ++ [0]).map some)
  else
    Res.bind (wr (Mem.malloc (a.length + 3 + a.count 34)) 0 [34]) fun m =>
    Res.bind (quoteLoop m 1 a) fun q =>
    wr q.1 q.2 [34, 0]

/-- The first loop (/repo/src/platform/os.c:282-288). -/
def cmdLen : List (List Nat) → Res Nat
  | [] => .ok 0
  | a :: l => Res.bind (quoteArg a) fun q => Res.bind (strlen q) fun n => Res.bind (cmdLen l) fun k => .ok (n + 1 + k)

/-- C `strcat` with the bytes of a text. -/
def strcat (m : Mem Nat) (xs : List Nat) : Res (Mem Nat) := Res.bind (strlen m) fun n => wr m n (xs ++ [0])

/-- The C string at the beginning of a block. -/
def cstr : Mem Nat → List Nat
  | some (n + 1) :: m => (n + 1) :: cstr m
  | _ => []

/-- The second loop (/repo/src/platform/os.c:292-301). -/
def fill (m : Mem Nat) : List (List Nat) → Res (Mem Nat)
  | [] => .ok m
  | a :: l =>
      Res.bind (quoteArg a) fun q => Res.bind (strcat m (cstr q)) fun m =>
      Res.bind (if l.isEmpty then .ok m else strcat m [32]) fun m => fill m l

/-- The command line of `z_run_command` (/repo/src/platform/os.c:282-301). -/
def cmdLine (argv : List (List Nat)) : Res (Mem Nat) :=
  Res.bind (cmdLen argv) fun n => Res.bind (wr (Mem.malloc (n + 1)) 0 [0]) fun m => fill m argv

namespace Spec

/-- Where the runtime is while it reads arguments: between arguments, or in one, with what it has of it, the backslashes read last, and whether it is in
quotes (`out`), in them (`ins`), or has just seen a quote that ends them (`end_`). -/
inductive Mode where
  | out
  | ins
  | end_
  deriving DecidableEq

/-- A state of the runtime's loop. -/
structure St where
  done : List (List Nat)
  cur : Option (List Nat)
  mode : Mode
  slashes : Nat

/-- One character, by the rules of the C runtime for arguments: blanks outside quotes separate; `2n` backslashes and a quote are `n` backslashes and the
quote begins or ends a quoted part; `2n+1` backslashes and a quote are `n` backslashes and a quote character; backslashes before anything else are
themselves; a doubled quote in a quoted part is a quote character. -/
def feed (s : St) (c : Nat) : St :=
  let cur := s.cur.getD []
  if c = 92 then { s with cur := some cur, slashes := s.slashes + 1, mode := if s.mode = .end_ then .out else s.mode }
  else if c = 34 then
    if s.slashes % 2 = 1 then { s with cur := some (cur ++ List.replicate (s.slashes / 2) 92 ++ [34]), slashes := 0 }
    else if s.mode = .end_ then { s with cur := some (cur ++ [34]), mode := .ins, slashes := 0 }
    else { s with cur := some (cur ++ List.replicate (s.slashes / 2) 92), slashes := 0, mode := if s.mode = .ins then .end_ else .ins }
  else if s.mode ≠ .ins ∧ (c = 32 ∨ c = 9) then
    match s.cur with
    | none => s
    | some x => ⟨s.done ++ [x ++ List.replicate s.slashes 92], none, .out, 0⟩
  else { s with cur := some (cur ++ List.replicate s.slashes 92 ++ [c]), slashes := 0, mode := if s.mode = .end_ then .out else s.mode }

/-- The arguments in a text. -/
def args (t : List Nat) : List (List Nat) :=
  let s := t.foldl feed ⟨[], none, .out, 0⟩
  match s.cur with
  | none => s.done
  | some x => s.done ++ [x ++ List.replicate s.slashes 92]

/-- The program's name: up to a blank outside quotes, quotes left out, backslashes have no meaning. -/
def name : Bool → List Nat → List Nat × List Nat
  | _, [] => ([], [])
  | q, c :: t =>
      if c = 34 then name (!q) t
      else if q = false ∧ (c = 32 ∨ c = 9) then ([], c :: t)
      else (c :: (name q t).1, (name q t).2)

/-- What a program started with this command line gets. -/
def received (line : List Nat) : List (List Nat) := (name false line).1 :: args (name false line).2

/-- Arguments that survive: not empty; and, where quotes are put around them, no backslash before a quote or at the end. -/
def Survives (a : List Nat) : Prop :=
  a ≠ [] ∧ ((∃ c ∈ a, c ∈ [32, 9, 10, 11, 34]) → (¬ ∃ x y, a = x ++ 92 :: 34 :: y) ∧ ¬ ∃ x, a = x ++ [92])

end Spec

end Verif.WinArgs
