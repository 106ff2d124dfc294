import Verif.Basic

/-!
# Raw blocks and preprocessor directives: model

C code that is passed through: `raw { .. }` and lines that begin with `#`.  How their text is cut
out of the source (src/parser/parser_core.c, src/parser/parser_stmt.c, src/lexer/token.c) and where
it is put in the generated C (src/codegen/codegen_main.c).

Simplified: inside of a raw block the source is a list of tokens with the blanks and comments in
front of them (`Verif.Lexer` models how they are found); struct definitions are one piece of the
output.
-/

namespace Verif.RawBlock
open Verif

/-- a byte -/
abbrev Byte := UInt8

/-! ## Directives -/

/-- `TOK_PREPROC` (src/lexer/token.c:53-71): the bytes of the directive and the rest -/
def directive : List Byte → List Byte × List Byte
  | [] => ([], [])
  | c :: r =>
      if c = 10 then ([], c :: r)
      else
        match c, r with
        | 92, 10 :: r' => let (d, t) := directive r'; (92 :: 10 :: d, t)
        | c, r => let (d, t) := directive r; (c :: d, t)

/-- the text passed on for a directive (src/parser/parser_core.c:609-617,
src/parser/parser_stmt.c:2245-2255) -/
def directiveText (src : List Byte) : List Byte := (directive src).1 ++ [10]

/-! ## Raw blocks -/

/-- What matters of a token: braces, or anything else (a string with braces in it is one token). -/
inductive Kind where
  | open_ | close | other
  deriving DecidableEq, Repr

/-- A token with what stands in front of it -/
structure Tk where
  pre : List Byte
  kind : Kind
  text : List Byte

/-- the loop that finds the end (src/parser/parser_core.c:781-797, src/parser/parser_stmt.c:2443-2458):
the text up to the last byte read, without that byte, and the rest -/
def rawLoop (depth : Nat) (acc : List Byte) : List Tk → Res (List Byte × List Tk)
  | [] => .panic
  | t :: r =>
      let acc := acc ++ t.pre ++ t.text
      let depth := match t.kind with
        | .open_ => depth + 1
        | .close => depth - 1
        | .other => depth
      if depth = 0 then .ok (acc.dropLast, r) else rawLoop depth acc r

/-- `normalize_raw_content` (src/parser/parser_stmt.c:147-181) -/
def normalize : List Byte → List Byte
  | [] => []
  | c :: r =>
      if c = 13 then
        if r.head? = some 10 then normalize r else 10 :: normalize r
      else c :: normalize r

/-- a raw block at top level (src/parser/parser_core.c:769-807), behind its brace -/
def rawTop (ts : List Tk) : Res (List Byte × List Tk) := rawLoop 1 [] ts

/-- a raw block as a statement (src/parser/parser_stmt.c:2434-2472), behind its brace -/
def rawStmt (ts : List Tk) : Res (List Byte × List Tk) := do
  let (c, r) ← rawLoop 1 [] ts
  .ok (normalize c, r)

/-! ## Emission at top level -/

/-- Top-level nodes: raw text, or anything else -/
inductive Node where
  | raw (c : List Byte)
  | other

/-- blanks that are skipped (src/codegen/codegen_main.c:541-544) -/
def blank (c : Byte) : Bool := c = 32 || c = 9 || c = 10

/-- the text begins with `#` (src/codegen/codegen_main.c:539-546) -/
def isDir (c : List Byte) : Bool := (c.dropWhile blank).head? = some 35

/-- one pass over the nodes: the directives, or the others, that are not emitted yet
(src/codegen/codegen_main.c:533-556, 563-583); the texts and what is emitted now -/
def pass (dirs : Bool) (seen : List (List Byte)) : List Node → List (List Byte) × List (List Byte)
  | [] => ([], seen)
  | .other :: r => pass dirs seen r
  | .raw c :: r =>
      if isDir c = dirs then
        if c ∈ seen then pass dirs seen r
        else let (out, seen) := pass dirs (c :: seen) r; (c :: out, seen)
      else pass dirs seen r

/-- Pieces of the output -/
inductive Piece where
  | raw (c : List Byte)
  | structs
  deriving DecidableEq

/-- the raw texts in the generated C and the struct definitions between them
(src/codegen/codegen_main.c:530-583) -/
def emit (ns : List Node) : List Piece :=
  let (ds, seen) := pass true [] ns
  let (os, _) := pass false seen ns
  ds.map .raw ++ .structs :: os.map .raw

/-! ## What is expected -/

namespace Spec

/-- Tokens in which the braces match -/
inductive Balanced : List Tk → Prop
  | nil : Balanced []
  | tok {t r} : t.kind = .other → Balanced r → Balanced (t :: r)
  | braces {o a c r} : o.kind = .open_ → c.kind = .close → Balanced a → Balanced r →
      Balanced (o :: (a ++ c :: r))

/-- the bytes of tokens -/
def bytes (ts : List Tk) : List Byte := (ts.map fun t => t.pre ++ t.text).flatten

/-- The ends of a line: line feed, carriage return, both -/
inductive Eol where
  | lf | cr | crlf
  deriving DecidableEq

/-- its bytes -/
def Eol.text : Eol → List Byte
  | .lf => [10]
  | .cr => [13]
  | .crlf => [13, 10]

/-- lines with their ends, and what is behind the last -/
def linesText (ls : List (List Byte × Eol)) (last : List Byte) : List Byte :=
  (ls.map fun l => l.1 ++ l.2.text).flatten ++ last

/-- A carriage return that ends a line is not followed by a line feed. -/
def Clear (last : List Byte) : List (List Byte × Eol) → Prop
  | [] => True
  | l :: ls => (l.2 = .cr → (linesText ls last).head? ≠ some 10) ∧ Clear last ls

/-- the raw texts among the nodes -/
def raws : List Node → List (List Byte)
  | [] => []
  | .raw c :: r => c :: raws r
  | .other :: r => raws r

/-- the raw texts of the output -/
def outRaws : List Piece → List (List Byte)
  | [] => []
  | .raw c :: r => c :: outRaws r
  | .structs :: r => outRaws r

/-- a directive of several lines, each but the last ended by a backslash -/
def joined (eol : List Byte) : List (List Byte) → List Byte → List Byte
  | [], last => last
  | l :: ls, last => l ++ 92 :: (eol ++ joined eol ls last)

/-- ASCII text -/
def ascii (s : String) : List Byte := s.toList.map fun c => UInt8.ofNat c.toNat

/-- `#ifdef X` as it is passed on -/
def ifdef (x : List Byte) : List Byte := ascii "#ifdef " ++ x ++ [10]

/-- `#endif` as it is passed on -/
def endif : List Byte := ascii "#endif" ++ [10]

end Spec

end Verif.RawBlock
