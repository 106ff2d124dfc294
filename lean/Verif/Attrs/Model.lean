import Verif.Basic

/-!
# Attributes of functions and structs: model

How the list of attributes in front of a declaration is read (src/parser/parser_core.c:104-606) and
what is put into the generated C for it (src/codegen/codegen_stmt.c:672-765 for functions,
src/codegen/codegen_decl.c:443-521 for structs).

Simplified: the source is a list of tokens; `@cfg` and `@derive` are left out (`Verif.Cfg`,
`Verif.Derive`); an attribute in the C text is its name with its arguments, and a separator is the
text `", "`; numbers fit an `int`.
-/

namespace Verif.Attrs
open Verif

/-- Tokens; a string without its quotes, a number with its text -/
inductive Tok where
  | at_ | ident (w : String) | str (s : String) | int (ds : List Char) | lp | rp | comma | other (w : String)
  deriving DecidableEq, Repr

/-- `token_strdup` -/
def text : Tok → String
  | .at_ => "@"
  | .ident w => w
  | .str s => "\"" ++ s ++ "\""
  | .int ds => String.ofList ds
  | .lp => "("
  | .rp => ")"
  | .comma => ","
  | .other w => w

/-- The variables of the loop (src/parser/parser_core.c:75-102): the names of the flags that are set,
the section, the alignment, the size of a vector and the custom attributes, the last one first -/
structure Attrs where
  on : List String
  section_ : Option String
  align : Nat
  vector : Nat
  custom : List (String × List String)
  deriving DecidableEq, Repr

/-- nothing set -/
def none_ : Attrs := ⟨[], none, 0, 0, []⟩

/-- the flags that are put into the C text of a function, in their order
(src/codegen/codegen_stmt.c:691-700) -/
def fnFlags : List String :=
  ["constructor", "destructor", "noinline", "unused", "weak", "cold", "hot", "noreturn", "pure", "export"]

/-- attributes without arguments (src/parser/parser_core.c:113-183, 224-227, 543-555) -/
def plain : List String :=
  fnFlags ++ ["must_use", "inline", "comptime", "packed", "global", "device", "host"]

/-- attributes that are handled otherwise than by passing them on -/
def special : List String := plain ++ ["deprecated", "section", "vector", "align", "cfg", "derive"]

/-- C `atoi` on the text of a number (it begins with a digit) -/
def atoi (ds : List Char) : Nat :=
  (ds.takeWhile Char.isDigit).foldl (fun v c => 10 * v + (c.toNat - 48)) 0

/-- the closing parenthesis -/
def close : List Tok → Res (List Tok)
  | .rp :: r => .ok r
  | _ => .panic

/-- the arguments of a custom attribute behind `(` (src/parser/parser_core.c:568-599) -/
def customArgs (acc : List String) : List Tok → Res (List String × List Tok)
  | t :: .comma :: r => customArgs (acc ++ [text t]) r
  | t :: .rp :: r => .ok (acc ++ [text t], r)
  | _ => .panic

/-- `@section` (src/parser/parser_core.c:184-205): a name that is no string is dropped -/
def sectionAttr (a : Attrs) : List Tok → Res (Attrs × List Tok)
  | .lp :: .str s :: r => do
      let r ← close r
      .ok ({ a with section_ := some s }, r)
  | .lp :: _ :: r => do
      let r ← close r
      .ok (a, r)
  | _ => .panic

/-- `@align` (src/parser/parser_core.c:228-247): a value that is no number is dropped -/
def alignAttr (a : Attrs) : List Tok → Res (Attrs × List Tok)
  | .lp :: .int ds :: r => do
      let r ← close r
      .ok ({ a with align := atoi ds }, r)
  | .lp :: _ :: r => do
      let r ← close r
      .ok (a, r)
  | _ => .panic

/-- `@vector` (src/parser/parser_core.c:206-223) -/
def vectorAttr (a : Attrs) : List Tok → Res (Attrs × List Tok)
  | .lp :: .int ds :: r => do
      let r ← close r
      .ok ({ a with vector := atoi ds }, r)
  | .lp :: _ :: r => do
      let r ← close r
      .ok (a, r)
  | ts => .ok (a, ts)

/-- `@deprecated` (src/parser/parser_core.c:117-135) -/
def deprecatedAttr (a : Attrs) : List Tok → Res (Attrs × List Tok)
  | .lp :: _ :: r => do
      let r ← close r
      .ok (a, r)
  | [.lp] => .panic
  | ts => .ok (a, ts)

/-- any other attribute (src/parser/parser_core.c:556-601) -/
def customAttr (a : Attrs) (w : String) : List Tok → Res (Attrs × List Tok)
  | .lp :: r => do
      let (args, r) ← customArgs [] r
      .ok ({ a with custom := (w, args) :: a.custom }, r)
  | ts => .ok ({ a with custom := (w, []) :: a.custom }, ts)

/-- one attribute behind its name (src/parser/parser_core.c:113-602) -/
def attr (a : Attrs) (w : String) (ts : List Tok) : Res (Attrs × List Tok) :=
  if w ∈ plain then .ok ({ a with on := w :: a.on }, ts)
  else if w = "deprecated" then deprecatedAttr a ts
  else if w = "section" then sectionAttr a ts
  else if w = "vector" then vectorAttr a ts
  else if w = "align" then alignAttr a ts
  else customAttr a w ts

/-- the loop over the attributes (src/parser/parser_core.c:104-606); the first argument bounds the
rounds -/
def attrs : Nat → Attrs → List Tok → Res (Attrs × List Tok)
  | 0, _, _ => .panic
  | n + 1, a, ts =>
      match ts with
      | .at_ :: .ident w :: r => do
          let (a, r) ← attr a w r
          attrs n a r
      | .at_ :: _ => .panic
      | ts => .ok (a, ts)

/-! ## Output -/

/-- An attribute of the C text: its name and its arguments -/
abbrev Item := String × List String

/-- The text between `__attribute__((` and `))`: attributes and separators -/
inductive Out where
  | item (i : Item)
  | sep
  deriving DecidableEq, Repr

/-- the C attribute of a flag (src/codegen/codegen_stmt.c:691-700) -/
def flagItem (w : String) : Item :=
  if w = "export" then ("visibility", ["\"default\""]) else (w, [])

/-- `if (!first) fprintf(", "); fprintf(..); first = 0` -/
def push (st : Bool × List Out) (i : Item) : Bool × List Out :=
  (false, st.2 ++ (if st.1 then [] else [.sep]) ++ [.item i])

/-- `EMIT_ATTR` (src/codegen/codegen_stmt.c:683-700) -/
def emitFlag (on : List String) (st : Bool × List Out) (w : String) : Bool × List Out :=
  if w ∈ on then push st (flagItem w) else st

/-- the section (src/codegen/codegen_stmt.c:701-708): `first` is not changed -/
def emitSection (st : Bool × List Out) : Option String → Bool × List Out
  | some s => (st.1, st.2 ++ (if st.1 then [] else [.sep]) ++ [.item ("section", ["\"" ++ s ++ "\""])])
  | none => st

/-- the attributes of a function (src/codegen/codegen_stmt.c:672-765): at most one list -/
def fnGroups (a : Attrs) : List (List Out) :=
  if fnFlags.any (fun w => decide (w ∈ a.on)) || a.section_.isSome then
    let st := fnFlags.foldl (emitFlag a.on) (true, [])
    let st := emitSection st a.section_
    let st := a.custom.foldl push st
    [st.2]
  else if a.custom.isEmpty then []
  else [(a.custom.foldl push (true, [])).2]

/-- the attributes of a struct (src/codegen/codegen_decl.c:443-521); a vector type gets none -/
def structGroups (a : Attrs) : List (List Out) :=
  if 0 < a.vector then []
  else
    (if "packed" ∈ a.on ∧ a.align ≠ 0 then
        [[.item ("packed", []), .sep, .item ("aligned", [toString a.align])]]
      else if "packed" ∈ a.on then [[.item ("packed", [])]] else []) ++
    (if a.align ≠ 0 then [[.item ("aligned", [toString a.align])]] else []) ++
    (if "export" ∈ a.on then [[.item ("visibility", ["\"default\""])]] else []) ++
    (if a.custom.isEmpty then [] else [(a.custom.foldl push (true, [])).2])

/-- reading and printing of the attributes of a function -/
def fnOutput (ts : List Tok) : Res (List (List Out)) := do
  let (a, _) ← attrs (ts.length + 1) none_ ts
  .ok (fnGroups a)

/-- reading and printing of the attributes of a struct -/
def structOutput (ts : List Tok) : Res (List (List Out)) := do
  let (a, _) ← attrs (ts.length + 1) none_ ts
  .ok (structGroups a)

/-! ## What is expected -/

namespace Spec

/-- An attribute as it is written -/
inductive Src where
  | plain (w : String)
  | deprecated (msg : String)
  | section_ (s : String)
  | align (ds : List Char)
  | custom (w : String)
  | customArgs (w : String) (arg : Tok) (args : List Tok)
  deriving DecidableEq

/-- tokens with a comma in front of each -/
def commaText : List Tok → List Tok
  | [] => []
  | t :: ts => .comma :: t :: commaText ts

/-- its text -/
def Src.text : Src → List Tok
  | .plain w => [.at_, .ident w]
  | .deprecated m => [.at_, .ident "deprecated", .lp, .str m, .rp]
  | .section_ s => [.at_, .ident "section", .lp, .str s, .rp]
  | .align ds => [.at_, .ident "align", .lp, .int ds, .rp]
  | .custom w => [.at_, .ident w]
  | .customArgs w t ts => [.at_, .ident w, .lp, t] ++ commaText ts ++ [.rp]

/-- the number a text of digits stands for -/
def decVal (ds : List Char) : Nat := ds.foldl (fun v c => 10 * v + (c.toNat - 48)) 0

/-- the C attribute for a function -/
def fnItem : Src → Option Item
  | .plain w => if w ∈ fnFlags then some (if w = "export" then ("visibility", ["\"default\""]) else (w, [])) else none
  | .section_ s => some ("section", ["\"" ++ s ++ "\""])
  | .custom w => some (w, [])
  | .customArgs w t ts => some (w, (t :: ts).map Attrs.text)
  | _ => none

/-- the C attribute for a struct -/
def structItem : Src → Option Item
  | .plain w => if w = "packed" then some ("packed", [])
      else if w = "export" then some ("visibility", ["\"default\""]) else none
  | .align ds => some ("aligned", [toString (decVal ds)])
  | .custom w => some (w, [])
  | .customArgs w t ts => some (w, (t :: ts).map Attrs.text)
  | _ => none

/-- well-formed attributes: known names are flags, unknown names are passed on, a number has digits
only and is not zero -/
def Src.Ok : Src → Prop
  | .plain w => w ∈ Attrs.plain
  | .custom w => w ∉ special
  | .customArgs w _ _ => w ∉ special
  | .align ds => (∀ c ∈ ds, c.isDigit = true) ∧ decVal ds ≠ 0
  | _ => True

/-- What a C compiler reads: attributes separated by commas -/
def readList : List Out → Option (List Item)
  | [.item i] => some [i]
  | .item i :: .sep :: r => (readList r).map (i :: ·)
  | _ => none

/-- all the lists are well-formed and have exactly these attributes -/
def Carries (groups : List (List Out)) (want : Item → Prop) : Prop :=
  ∃ iss : List (List Item), groups.map readList = iss.map some ∧ ∀ i, (∃ is ∈ iss, i ∈ is) ↔ want i

end Spec

end Verif.Attrs
