import Verif.Basic

/-!
# The tips of the compiler: model

`map_trigger_name`, `load_facts`, `zzen_at`, `zen_trigger_at` and `zen_trigger_global`
(/repo/src/zen/zen_facts.c:27-332).

Simplified: the file is what `fopen` and `cJSON_Parse` make of the first one that is there, and is the
same whenever it is read; of an element of its array only the three members that are looked up are kept,
each as the string it is or as nothing.  What is printed is the message and the link; the place in the
source is not modelled.  `rand` gives the numbers that are part of the events.
-/

namespace Verif.ZenTip
open Verif

/-- `ZenTrigger` (/repo/src/zen/zen_facts.h:13-28). -/
inductive Trigger where
  | goto | pointerArith | bitwise | recursion | ternary | asm | whileTrue | macro | voidPtr | main
  | formatString | structPadding | global
  deriving DecidableEq, Repr

/-- An element of the array of the file: its `trigger`, `message` and `url` where they are strings
(zen_facts.c:144-157). -/
structure Item where
  trigger : Option String
  message : Option String
  url : Option String
  deriving DecidableEq, Repr

/-- `ZenFact` (zen_facts.c:10-15); `none` is the null pointer. -/
structure Fact where
  trigger : Trigger
  message : Option String
  url : Option String
  deriving DecidableEq, Repr

/-- `map_trigger_name` (zen_facts.c:27-82). -/
def mapName (s : String) : Trigger :=
  if s = "TRIGGER_GOTO" then .goto
  else if s = "TRIGGER_POINTER_ARITH" then .pointerArith
  else if s = "TRIGGER_BITWISE" then .bitwise
  else if s = "TRIGGER_RECURSION" then .recursion
  else if s = "TRIGGER_TERNARY" then .ternary
  else if s = "TRIGGER_ASM" then .asm
  else if s = "TRIGGER_WHILE_TRUE" then .whileTrue
  else if s = "TRIGGER_MACRO" then .macro
  else if s = "TRIGGER_VOID_PTR" then .voidPtr
  else if s = "TRIGGER_MAIN" then .main
  else if s = "TRIGGER_FORMAT_STRING" then .formatString
  else if s = "TRIGGER_STRUCT_PADDING" then .structPadding
  else .global

/-- One element (zen_facts.c:137-161): `calloc` has made the trigger the first of the enumeration. -/
def fact (i : Item) : Fact :=
  ⟨match i.trigger with | some s => mapName s | none => .goto, i.message, i.url⟩

/-- The search for the facts of a trigger (zen_facts.c:243-256, 306-319): `matches` has ten places. -/
def matching (t : Trigger) : Nat → List Fact → List Fact
  | _, [] => []
  | room, f :: r =>
    if f.trigger = t then
      if room ≤ 1 then [f] else f :: matching t (room - 1) r
    else matching t room r

/-- `quiet` and `no_zen` (zen_facts.c:213, 273). -/
structure Config where
  quiet : Bool
  noZen : Bool
  deriving DecidableEq, Repr

/-- `has_triggered` (zen_facts.c:25) and `g_warning_count`. -/
structure State where
  triggered : Bool
  warnings : Nat
  deriving DecidableEq, Repr

/-- What is printed. -/
structure Tip where
  message : String
  url : Option String
  deriving DecidableEq, Repr

/-- The end of both functions, from `load_facts` on (zen_facts.c:234-269, 297-332).  `file` is `none` if
there is no file or it is no array.  A null message is given to `%s` (zen_facts.c:176). -/
def pick (file : Option (List Item)) (s : State) (t : Trigger) (r : Nat) : Res (State × List Tip) :=
  match file with
  | none => .ok (s, [])
  | some is =>
    let ms := matching t 10 (is.map fact)
    match ms[r % ms.length]? with
    | none => .ok (s, [])
    | some f =>
      match f.message with
      | none => .ub
      | some m => .ok ({ s with triggered := true }, [⟨m, f.url⟩])

/-- What happens in a compilation, as far as tips go: a warning, a construct that has a tip
(`zen_trigger_at`) with the two numbers of `rand`, and the end (`zen_trigger_global`) with whether there is
a terminal. -/
inductive Event where
  | warn
  | at (t : Trigger) (r1 r2 : Nat)
  | finish (tty : Bool) (r1 r2 : Nat)
  deriving DecidableEq, Repr

/-- One event: zen_trigger_at (zen_facts.c:211-269), zen_trigger_global (zen_facts.c:271-332), and
`g_warning_count++` of the warnings (/repo/src/diagnostics/diagnostics.c:74, 100, 151). -/
def step (c : Config) (file : Option (List Item)) (s : State) : Event → Res (State × List Tip)
  | .warn => .ok ({ s with warnings := s.warnings + 1 }, [])
  | .at t r1 r2 =>
    if c.quiet || c.noZen then .ok (s, [])
    else if s.triggered then .ok (s, [])
    else if s.warnings > 0 then .ok (s, [])
    else if r1 % 100 ≥ 10 then .ok (s, [])
    else pick file s t r2
  | .finish tty r1 r2 =>
    if c.quiet || c.noZen then .ok (s, [])
    else if !tty then .ok (s, [])
    else if s.triggered then .ok (s, [])
    else if s.warnings > 0 then .ok (s, [])
    else if r1 % 100 ≥ 10 then .ok (s, [])
    else pick file s .global r2

/-- A compilation: the tips that are printed, in order. -/
def run (c : Config) (file : Option (List Item)) (s : State) : List Event → Res (List Tip)
  | [] => .ok []
  | e :: r => (step c file s e).bind (fun x => (run c file x.1 r).bind (fun ts => .ok (x.2 ++ ts)))

/-- The start of a compilation (zen_facts.c:25). -/
def start : State := ⟨false, 0⟩

namespace Spec

/-- The names of the triggers, as facts.json has them. -/
def name : Trigger → String
  | .goto => "TRIGGER_GOTO" | .pointerArith => "TRIGGER_POINTER_ARITH" | .bitwise => "TRIGGER_BITWISE"
  | .recursion => "TRIGGER_RECURSION" | .ternary => "TRIGGER_TERNARY" | .asm => "TRIGGER_ASM"
  | .whileTrue => "TRIGGER_WHILE_TRUE" | .macro => "TRIGGER_MACRO" | .voidPtr => "TRIGGER_VOID_PTR"
  | .main => "TRIGGER_MAIN" | .formatString => "TRIGGER_FORMAT_STRING"
  | .structPadding => "TRIGGER_STRUCT_PADDING" | .global => "TRIGGER_GLOBAL"

/-- A file as it is meant to be: every element has a message and the name of a trigger. -/
def Good (is : List Item) : Prop :=
  ∀ i ∈ is, (∃ t, i.trigger = some (name t)) ∧ ∃ m, i.message = some m

/-- The trigger an event stands for. -/
def asks : Event → Option Trigger
  | .warn => none
  | .at t _ _ => some t
  | .finish _ _ _ => some .global

/-- A tip of the file for a trigger. -/
def Is (i : Item) (t : Trigger) (x : Tip) : Prop :=
  i.trigger = some (name t) ∧ i.message = some x.message ∧ i.url = x.url

end Spec
end Verif.ZenTip
