import Verif.Basic
import Verif.Forth.Model

/-!
# C headers (`include "file.h"`)

The scanner of C headers: the lines of a file, the prototypes, structs, unions and constants found in
them, and the headers they include.  Texts are lists of characters without NUL.

Simplifications: a file system is a function from paths to texts (what `load_file` gives); the part of a
`#define` after its name is read by the expression parser of the language, which is a parameter
(`Macros`); comments inside of a `#define` are not modelled; `isalnum` and `isspace` are those of the C
locale.  The tables of the compiler are lists, latest entry first.
-/

namespace Verif.CHeader

abbrev Str := Forth.Str
open Forth (isspace)

/-- `isalnum(c) || c == '_'`, in the C locale.  /repo/src/parser/parser_stmt.c:3144,3243,3277. -/
def isIdent (c : Char) : Bool :=
  ('0' ≤ c && c ≤ '9') || ('a' ≤ c && c ≤ 'z') || ('A' ≤ c && c ≤ 'Z') || c = '_'

/-- `while (*p && isspace(*p)) p++`.  /repo/src/parser/parser_stmt.c:3081-3084. -/
def skip (s : Str) : Str := s.dropWhile isspace

/-- The rest after the word `w`, if `s` begins with it: `strncmp(p, w, n) == 0 && !isalnum(p[n]) &&
p[n] != '_'`.  /repo/src/parser/parser_stmt.c:3091. -/
def afterWord (w s : Str) : Option Str :=
  if w.isPrefixOf s = true ∧ ((s.drop w.length).head?.any isIdent) = false then some (s.drop w.length)
  else none

/-- The lines the scanner of prototypes does not look at, by their first character.
/repo/src/parser/parser_stmt.c:3087. -/
def skipped (s : Str) : Bool :=
  match s with
  | [] => true
  | c :: _ => c = '#' || c = '/' || c = '*'

/-- The words a prototype does not begin with.  /repo/src/parser/parser_stmt.c:3091-3110. -/
def leading : List Str :=
  ["typedef".toList, "static".toList, "struct".toList, "union".toList, "enum".toList]

/-- The names that are no functions.  /repo/src/parser/parser_stmt.c:3156-3162. -/
def control : List Str := ["return".toList, "if".toList, "for".toList, "while".toList]

/-- The name of the function a line declares, if the line is taken for a prototype.
/repo/src/parser/parser_stmt.c:3078-3177. -/
def funcDecl (line : Str) : Option Str :=
  let p := skip line
  if skipped p then none
  else if leading.any (fun w => (afterWord w p).isSome) then none
  else if '(' ∉ p then none
  else if (p.reverse.dropWhile isspace).head? ≠ some ';' then none
  else if '{' ∈ p then none
  else
    let before := (p.takeWhile (· ≠ '(')).reverse.dropWhile isspace
    let name := (before.takeWhile isIdent).reverse
    if name = [] then none
    else if name ∈ control then none
    else if name.length = before.length then none
    else some name

/-- The C type a line declares: its name in the language and in C.
/repo/src/parser/parser_stmt.c:3191-3312. -/
def structDecl (line : Str) : Option (Str × Str) :=
  let p := skip line
  if skipped p then none
  else
    let typedef' := afterWord "typedef".toList p
    let p := (typedef'.map skip).getD p
    match afterWord "struct".toList p, afterWord "union".toList p with
    | some r, _ => tag "struct ".toList r
    | none, some r => tag "union ".toList r
    | none, none =>
      if typedef'.isSome then none
      else
        match p with
        | '}' :: r =>
          let r := skip r
          let name := r.takeWhile isIdent
          if name ≠ [] ∧ (skip (r.dropWhile isIdent)).head? = some ';' then some (name, name) else none
        | _ => none
where
  /-- The tag after `struct` or `union`.  /repo/src/parser/parser_stmt.c:3268-3306. -/
  tag (kw r : Str) : Option (Str × Str) :=
    let r := skip r
    let name := r.takeWhile isIdent
    let next := (skip (r.dropWhile isIdent)).head?
    if name ≠ [] ∧ (next = some '{' ∨ next = some ';') then some (name, kw ++ name) else none

/-- The lines of a file: a line feed after a backslash does not end a line (and stays in it, with the
backslash); empty lines are left out.  `acc` is the line so far, backwards.
/repo/src/parser/parser_stmt.c:3370-3394,3456-3460. -/
def lines (acc : Str) : Str → List Str
  | [] => if acc = [] then [] else [acc.reverse]
  | c :: s =>
    if c = '\n' ∧ acc.head? ≠ some '\\' then
      if acc = [] then lines [] s else acc.reverse :: lines [] s
    else lines (c :: acc) s

/-- What the rest of the compiler does with the text after the name of a `#define`: whether its tokens
are let through, parse as an expression, and have a value (as `long long`), when the constants known so
far are `env`.  `name` says whether the lexer takes a word for an identifier.
/repo/src/parser/parser_utils.c:34-124. -/
structure Macros where
  value : (Str → Option Int) → Str → Option Int
  name : Str → Bool

/-- `(int)val`, in two's complement.  /repo/src/parser/parser_utils.c:139. -/
def toInt (v : Int) : Int := (v + 2147483648) % 4294967296 - 2147483648

/-- The tables of the compiler that scanning a header fills, and the files it has read.
/repo/src/parser/parser.h, /repo/src/parser/parser_utils.c:730-740,882-905,3369-3389. -/
structure St where
  consts : List (Str × Int)
  externs : List Str
  aliases : List (Str × Str)
  imported : List Str
  /-- (ghost) the files loaded, latest first -/
  loaded : List Str
  deriving DecidableEq, Repr

/-- `find_symbol_entry` for constants.  /repo/src/parser/parser_utils.c:127-141. -/
def St.const? (st : St) (n : Str) : Option Int := (st.consts.find? (·.1 = n)).map (·.2)

/-- `register_extern_symbol`.  /repo/src/parser/parser_utils.c:882-905. -/
def St.extern (st : St) (n : Str) : St :=
  if n ∈ st.externs then st else { st with externs := n :: st.externs }

/-- `register_type_alias`.  /repo/src/parser/parser_utils.c:730-740. -/
def St.alias (st : St) (n t : Str) : St := { st with aliases := (n, t) :: st.aliases }

/-- The name and the text of a `#define` that is not function-like; `rest` is what follows the `#`.
The first word need only begin with `define`.
/repo/src/parser/parser_utils.c:30-50. -/
def define (m : Macros) (rest : Str) : Option (Str × Str) :=
  let r := skip rest
  if "define".toList.isPrefixOf r = true then
    let r := skip (r.dropWhile isIdent)
    let name := r.takeWhile isIdent
    let text := r.dropWhile isIdent
    if name ≠ [] ∧ m.name name = true ∧ text.head? ≠ some '(' then some (name, text) else none
  else none

/-- `try_parse_macro_const`: a name that has no entry yet becomes a constant.
/repo/src/parser/parser_utils.c:9-148. -/
def macroConst (m : Macros) (st : St) (rest : Str) : St :=
  match define m rest with
  | none => st
  | some (n, text) =>
    match m.value st.const? text with
    | none => st
    | some v => if (st.const? n).isSome then st else { st with consts := (n, toInt v) :: st.consts }

/-- The file named by `#include "..."`; `rest` is what follows the `#`.
/repo/src/parser/parser_stmt.c:3408-3433. -/
def nested (rest : Str) : Option Str :=
  match afterWord "include".toList (skip rest) with
  | none => none
  | some r =>
    match skip r with
    | '"' :: r =>
      if '"' ∈ r ∧ r.head? ≠ some '"' then some ((r.takeWhile (· ≠ '"')).take 255) else none
    | _ => none

/-- The directory of a header, into `char[1024]`.  /repo/src/parser/parser_stmt.c:3355-3367. -/
def dirOf (path : Str) : Str :=
  if '/' ∈ path then ((path.reverse.dropWhile (· ≠ '/')).drop 1).reverse.take 1023 else []

/-- The path of a header included from a header: `snprintf` into `char[1280]`.
/repo/src/parser/parser_stmt.c:3435-3445. -/
def nestedPath (dir name : Str) : Str :=
  (if dir = [] then name else dir ++ '/' :: name).take 1279

/-- A line that is not a directive.  /repo/src/parser/parser_stmt.c:3452-3455. -/
def declLine (st : St) (line : Str) : St :=
  let st := match funcDecl line with
    | some n => st.extern n
    | none => st
  match structDecl line with
  | some (n, t) => (st.alias n t).extern n
  | none => st

/-- The loop over the lines; `inc` scans a nested header.  /repo/src/parser/parser_stmt.c:3369-3461. -/
def scanLines (m : Macros) (inc : Str → St → St) (dir : Str) : List Str → St → St
  | [], st => st
  | line :: rest, st =>
    scanLines m inc dir rest
      (match skip line with
       | '#' :: r =>
         match nested r with
         | some name => inc (nestedPath dir name) (macroConst m st r)
         | none => macroConst m st r
       | _ => declLine st line)

/-- `scan_c_header_contents`; `n` is how many levels of headers may still be read, 17 at the top.
/repo/src/parser/parser_stmt.c:3329-3463. -/
def scan (m : Macros) (fs : Str → Option Str) : Nat → Str → St → St
  | 0, _, st => st
  | n + 1, path, st =>
    if path ∈ st.imported then st
    else
      match fs path with
      | none => { st with imported := path :: st.imported }
      | some src =>
        scanLines m (scan m fs n) (dirOf path) (lines [] src)
          { st with imported := path :: st.imported, loaded := path :: st.loaded }

/-- `include "path"`.  /repo/src/parser/parser_stmt.c:3489-3507. -/
def includeHeader (m : Macros) (fs : Str → Option Str) (path : Str) (st : St) : St :=
  scan m fs 17 path st

/-! ## The path of an `include` -/

/-- `include <...>`: the texts of the tokens up to `>` are put together in `char[256]`; `none` is the
end of the file, which the loop does not look for.  /repo/src/parser/parser_stmt.c:3472-3488. -/
def systemPath (buf : Str) : List (Option Str) → Forth.Out Str
  | [] => .ok buf
  | none :: _ => .more
  | some t :: rest => if (buf ++ t).length < 256 then systemPath (buf ++ t) rest else .ub

/-- `include "..."`: the token without its first and last character.
/repo/src/parser/parser_stmt.c:3489-3497. -/
def localPath (token : Str) : Forth.Out Str :=
  if token.length < 2 then .ub else .ok ((token.drop 1).take (token.length - 2))

/-! ## Specification -/

namespace Spec

/-- A text of blanks, without line feeds. -/
def Blank (s : Str) : Prop := ∀ c ∈ s, isspace c = true ∧ c ≠ '\n'

/-- An identifier of C, by its characters. -/
def Name (s : Str) : Prop := s ≠ [] ∧ ∀ c ∈ s, isIdent c = true

/-- A prototype on a line: blanks, a type, the name, blanks, parameters, blanks. -/
structure Proto where
  indent : Str
  type : Str
  name : Str
  gap : Str
  params : Str
  tail : Str
  last : Str

/-- The words the types of these prototypes do not begin with. -/
def notFirst : List Str :=
  ["typedef".toList, "static".toList, "struct".toList, "union".toList, "enum".toList]

/-- The words that are no names of functions. -/
def notName : List Str := ["return".toList, "if".toList, "for".toList, "while".toList]

/-- The text of a prototype. -/
def Proto.text (p : Proto) : Str :=
  p.indent ++ p.type ++ p.name ++ p.gap ++ '(' :: p.params ++ ')' :: p.tail ++ ';' :: p.last

/-- The prototypes the scanner is for: the type is a text that begins with a character of a name, does
not have a word of `notFirst` in front, ends with a blank or a star, and has no parenthesis. -/
structure Proto.Ok (p : Proto) : Prop where
  indent : Blank p.indent
  type : ∃ c r, p.type = c :: r ∧ isIdent c = true
  first : ∀ w ∈ notFirst, p.type.takeWhile isIdent ≠ w
  ends : ∃ c, p.type.getLast? = some c ∧ isIdent c = false
  flat : '(' ∉ p.type ∧ '{' ∉ p.type ∧ '\n' ∉ p.type
  name : Name p.name
  free : p.name ∉ notName
  gap : Blank p.gap
  params : '{' ∉ p.params ∧ '\n' ∉ p.params
  tail : '{' ∉ p.tail ∧ '\n' ∉ p.tail
  last : Blank p.last

/-- The declarations of a header, line by line. -/
inductive Item where
  /-- a prototype -/
  | proto (p : Proto)
  /-- `struct T {` or `struct T;`, or with `typedef` or `union`: with blanks between them and anything
  after the `{` or `;` -/
  | tag (union typedef' : Bool) (indent b1 b2 name b3 : Str) (brace : Bool) (rest : Str)
  /-- `} T;` -/
  | close (indent b1 name b2 rest : Str)
  /-- a member or a variable: a text that begins with a name, has no parenthesis, and is no struct or
  union -/
  | field (indent text : Str)
  /-- `// text`, or a line of a comment that begins with a star -/
  | comment (indent text : Str)

/-- The keyword. -/
def kw : Bool → Str
  | false => "struct".toList
  | true => "union".toList

/-- The text of a line. -/
def Item.text : Item → Str
  | .proto p => p.text
  | .tag u t i b1 b2 n b3 br rest =>
    i ++ (if t then "typedef".toList ++ b1 else []) ++ kw u ++ b2 ++ n ++ b3 ++
      (if br then '{' else ';') :: rest
  | .close i b1 n b2 rest => i ++ '}' :: b1 ++ n ++ b2 ++ ';' :: rest
  | .field i t => i ++ t
  | .comment i t => i ++ t

/-- The items as they are written; every text is one line that does not go on. -/
def Item.Ok : Item → Prop
  | .proto p => p.Ok
  | .tag _ t i b1 b2 n b3 br rest =>
    Blank i ∧ Blank b1 ∧ (t = true → b1 ≠ []) ∧ Blank b2 ∧ b2 ≠ [] ∧ Name n ∧ Blank b3 ∧ '\n' ∉ rest ∧
      (br = false → rest = []) ∧ rest.getLast? ≠ some '\\'
  | .close i b1 n b2 rest =>
    Blank i ∧ Blank b1 ∧ Name n ∧ Blank b2 ∧ '\n' ∉ rest ∧ '(' ∉ rest ∧ rest.getLast? ≠ some '\\'
  | .field i t =>
    Blank i ∧ (∃ c r, t = c :: r ∧ isIdent c = true) ∧ '(' ∉ t ∧ '\n' ∉ t ∧ t.getLast? ≠ some '\\' ∧
      ∀ w ∈ ["typedef".toList, "struct".toList, "union".toList], t.takeWhile isIdent ≠ w
  | .comment i t =>
    Blank i ∧ (∃ c r, t = c :: r ∧ (c = '/' ∨ c = '*')) ∧ '\n' ∉ t ∧ t.getLast? ≠ some '\\'

/-- The functions and types an item declares. -/
def Item.names : Item → List Str
  | .proto p => [p.name]
  | .tag _ _ _ _ _ n _ _ _ => [n]
  | .close _ _ n _ _ => [n]
  | .field _ _ => []
  | .comment _ _ => []

/-- The types an item declares, with their C types. -/
def Item.types : Item → List (Str × Str)
  | .tag u _ _ _ _ n _ _ _ => [(n, kw u ++ ' ' :: n)]
  | .close _ _ n _ _ => [(n, n)]
  | _ => []

/-- The text of a file from its lines. -/
def file (ls : List Str) : Str := (ls.map (· ++ ['\n'])).flatten

/-- `h` includes `g`: a line of `h` is `#include "..."` of a path that is `g` from the directory of
`h`. -/
def Includes (fs : Str → Option Str) (h g : Str) : Prop :=
  ∃ src line r name, fs h = some src ∧ line ∈ lines [] src ∧ skip line = '#' :: r ∧
    nested r = some name ∧ g = nestedPath (dirOf h) name

/-- `g` is included from `h`, over any number of headers. -/
inductive Reach (fs : Str → Option Str) (h : Str) : Str → Prop
  | refl : Reach fs h h
  | step {g k : Str} : Reach fs h g → Includes fs g k → Reach fs h k

end Spec

end Verif.CHeader
