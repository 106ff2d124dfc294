import Verif.Basic

/-!
# Initialisers that are written straight into the C program: model

`embed "file" as T` (`parse_embed`), slice literals (`parse_array_literal`) and tuple literals
(`parse_tuple_literal`), /repo/src/parser/parser_type.c:965-1238, and the choice between them in
/repo/src/parser/parser_decl.c:523-566.

Simplified: a token is its text with the blanks and comments before it, and of its kind only what these
functions ask for; types are the strings `type_to_string` makes of them; the file system is a function.
Allocation does not fail.  Registering the slice type and the types of the nodes are left out.
-/

namespace Verif.InitLit

/-- Text. -/
abbrev Str := List Char

/-- The type behind `as`, as `parse_embed` looks at it: none, an array of a size above zero, an array
without size, or something else; with the text of the element type or the type.
/repo/src/parser/parser_type.c:1118-1187. -/
inductive Target where
  | none
  | fixed (inner : Str) (size : Nat)
  | slice (inner : Str)
  | other (ts : Str)
  deriving DecidableEq, Repr

/-- A hexadecimal digit of `%02X`.  /repo/src/parser/parser_type.c:1199,1203. -/
def hexDigit (n : Nat) : Char := if n < 10 then Char.ofNat (48 + n) else Char.ofNat (55 + n)

/-- `%02X` of a byte.  /repo/src/parser/parser_type.c:1199,1203. -/
def hex2 (b : UInt8) : Str := [hexDigit (b.toNat / 16), hexDigit (b.toNat % 16)]

/-- `%ld` and `%d` of a number that is not negative.  /repo/src/parser/parser_type.c:1039,1221. -/
def dec (n : Nat) : Str := if n < 10 then [Char.ofNat (48 + n)] else dec (n / 10) ++ [Char.ofNat (48 + n % 10)]

/-- Is the text a string type?  /repo/src/parser/parser_type.c:1174,1192. -/
def isStringType (ts : Str) : Bool := ts = "string".toList || ts = "char*".toList

/-- What is written before the bytes.  /repo/src/parser/parser_type.c:1139-1187. -/
def opening : Target → Str
  | .none => "(Slice_char){.data=(char[]){".toList
  | .fixed t _ => "(".toList ++ t ++ "[]){".toList
  | .slice t => "(Slice_".toList ++ t ++ "){.data=(".toList ++ t ++ "[]){".toList
  | .other ts => if isStringType ts then "(char*)\"".toList else "(".toList ++ ts ++ "){".toList

/-- `is_string`: the type the target has become is a string type; an array of a size has become a
pointer.  /repo/src/parser/parser_type.c:1151-1153,1191-1193. -/
def isString : Target → Bool
  | .none => false
  | .fixed t _ => isStringType (t ++ ['*'])
  | .slice t => isStringType ("Slice_".toList ++ t)
  | .other ts => isStringType ts

/-- One byte.  /repo/src/parser/parser_type.c:1195-1206. -/
def byteText (str : Bool) (b : UInt8) : Str :=
  if str then "\\x".toList ++ hex2 b else "0x".toList ++ hex2 b ++ [',']

/-- What is written behind the bytes; whether it is a slice is read off the text so far.
/repo/src/parser/parser_type.c:1208-1226. -/
def closing (tg : Target) (n : Nat) : Str :=
  if isString tg then ['"']
  else if (opening tg).take 7 = "(Slice_".toList then
    "},.len=".toList ++ dec n ++ ",.cap=".toList ++ dec n ++ "}".toList
  else ['}']

/-- `slice_name[256]`.  /repo/src/parser/parser_type.c:1160-1161. -/
def nameFits : Target → Bool
  | .slice t => t.length + 6 < 256
  | _ => true

/-- `parse_embed`: the name of the file goes to 256 characters, the text to a block of six characters
for each byte and 256 more.  /repo/src/parser/parser_type.c:1105-1233. -/
def embed (fs : Str → Option (List UInt8)) (name : Str) (tg : Target) : Res Str :=
  if name.length < 256 then
    match fs name with
    | none => .panic
    | some bs =>
      let text := opening tg ++ bs.flatMap (byteText (isString tg)) ++ closing tg bs.length
      if nameFits tg then
        if text.length < bs.length * 6 + 256 then .ok text else .ub
      else .ub
  else .ub

/-- Which of the special initialisers is taken, for a token that is a word.
/repo/src/parser/parser_decl.c:529-531. -/
def isEmbed (word : Str) : Bool := "embed".toList.isPrefixOf word

/-! ## Slice and tuple literals -/

/-- The kinds of tokens these functions know. -/
inductive Kind where
  | lbracket
  | rbracket
  | lparen
  | rparen
  | comma
  | other
  deriving DecidableEq, Repr

/-- A token, with what stands before it. -/
structure Tok where
  lead : Str
  text : Str
  kind : Kind
  deriving DecidableEq, Repr

/-- The source of some tokens. -/
def raw (ts : List Tok) : Str := ts.flatMap (fun t => t.lead ++ t.text)

/-- The loop over the tokens of an element of a slice literal: what it takes and what it leaves.
/repo/src/parser/parser_type.c:988-1010. -/
def element : List Tok → Int → List Tok × List Tok
  | [], _ => ([], [])
  | t :: r, d =>
    if d = 0 ∧ (t.kind = .comma ∨ t.kind = .rbracket) then ([], t :: r)
    else
      let d := if t.kind = .lbracket ∨ t.kind = .lparen then d + 1 else d
      let d := if t.kind = .rbracket ∨ t.kind = .rparen then d - 1 else d
      let p := element r d
      (t :: p.1, p.2)

/-- The variables of the loop: what is left of the source, the text so far, the size of its block, and
the number of elements. -/
structure LSt where
  toks : List Tok
  c : Str
  cap : Nat
  n : Nat
  deriving DecidableEq, Repr

/-- The outcome of a round of the outer loop. -/
inductive Round where
  | more (s : LSt)
  | done (s : LSt)
  deriving DecidableEq, Repr

/-- One element: the block is doubled when it is too small, once.
/repo/src/parser/parser_type.c:1012-1023. -/
def addElement (s : LSt) : Res LSt :=
  let p := element s.toks 0
  let len := (raw p.1).length
  let cap := if s.c.length + len + 5 > s.cap then s.cap * 2 else s.cap
  let c := (if s.n > 0 then s.c ++ ", ".toList else s.c) ++ raw p.1
  if c.length < cap then .ok ⟨p.2, c, cap, s.n + 1⟩ else .ub

/-- A round of the outer loop.  At the end of the source the first token is neither a bracket nor a
comma, and the element is empty.  /repo/src/parser/parser_type.c:974-1024. -/
def round (s : LSt) : Res Round :=
  match s.toks with
  | t :: r =>
    if t.kind = .rbracket then .ok (.done { s with toks := r })
    else if t.kind = .comma then .ok (.more { s with toks := r })
    else do .ok (.more (← addElement s))
  | [] => do .ok (.more (← addElement s))

/-- At most `k` rounds of the loop.  /repo/src/parser/parser_type.c:974-1024. -/
def rounds : Nat → LSt → Res Round
  | 0, s => .ok (.more s)
  | k + 1, s => do
    match ← round s with
    | .more s' => rounds k s'
    | .done s' => .ok (.done s')

/-- The state behind the opening bracket.  /repo/src/parser/parser_type.c:967-973. -/
def start (ts : List Tok) : LSt := ⟨ts, [], 128, 0⟩

/-- The text of the literal: `rt` has 64 characters, the block 128 more than the elements.  `st` begins
with `Slice_`.  /repo/src/parser/parser_type.c:1026-1040. -/
def finish (st : Str) (s : LSt) : Res Str :=
  let rt := if "Slice_".toList.isPrefixOf st then st.drop 6 else "int".toList
  if rt.length < 64 then
    let o := "(".toList ++ st ++ "){.data=(".toList ++ rt ++ "[]){".toList ++ s.c ++ "},.len=".toList ++
      dec s.n ++ ",.cap=".toList ++ dec s.n ++ "}".toList
    if o.length < s.c.length + 128 then .ok o else .ub
  else .ub

/-- `parse_array_literal` with at most `k` rounds: the literal and the rest of the source, or `none`
when it is not done yet. -/
def arrayLiteral (k : Nat) (st : Str) (ts : List Tok) : Res (Option (Str × List Tok)) := do
  match ← rounds k (start ts) with
  | .more _ => .ok none
  | .done s => do
    let o ← finish st s
    .ok (some (o, s.toks))

/-! ## What these initialisers are -/

namespace Spec

/-- The value of a hexadecimal digit. -/
def hexVal (c : Char) : Option Nat :=
  if '0' ≤ c ∧ c ≤ '9' then some (c.toNat - 48)
  else if 'A' ≤ c ∧ c ≤ 'F' then some (c.toNat - 55)
  else if 'a' ≤ c ∧ c ≤ 'f' then some (c.toNat - 87)
  else none

/-- A number in hexadecimal digits. -/
inductive Hex : Str → Nat → Prop
  | one {c : Char} {v : Nat} : hexVal c = some v → Hex [c] v
  | snoc {s : Str} {n v : Nat} {c : Char} : Hex s n → hexVal c = some v → Hex (s ++ [c]) (n * 16 + v)

/-- A list of initialisers of C: hexadecimal constants, each with a comma behind it. -/
inductive Inits : Str → List Nat → Prop
  | nil : Inits [] []
  | cons {s r : Str} {n : Nat} {ns : List Nat} : Hex s n → Inits r ns →
      Inits ("0x".toList ++ s ++ [','] ++ r) (n :: ns)

/-- The body of a string literal of C that is made of hexadecimal escapes.  An escape goes as far as
there are hexadecimal digits, and its value must be a character. -/
inductive Chars : Str → List Nat → Prop
  | nil : Chars [] []
  | cons {s r : Str} {n : Nat} {ns : List Nat} : Hex s n → n < 256 →
      (∀ c, r.head? = some c → hexVal c = none) → Chars r ns →
      Chars ("\\x".toList ++ s ++ r) (n :: ns)

/-- A number in decimal digits, without leading zeros. -/
inductive Dec : Str → Nat → Prop
  | one {v : Nat} : v < 10 → Dec [Char.ofNat (48 + v)] v
  | snoc {s : Str} {n v : Nat} : Dec s n → 0 < n → v < 10 →
      Dec (s ++ [Char.ofNat (48 + v)]) (n * 10 + v)

/-- Brackets and parentheses are nested; inside of them commas are like any other token. -/
inductive Inner : List Tok → Prop
  | nil : Inner []
  | tok {t : Tok} {r : List Tok} : t.kind = .other ∨ t.kind = .comma → Inner r → Inner (t :: r)
  | group {o c : Tok} {i r : List Tok} :
      (o.kind = .lbracket ∧ c.kind = .rbracket) ∨ (o.kind = .lparen ∧ c.kind = .rparen) →
      Inner i → Inner r → Inner (o :: i ++ c :: r)

/-- Brackets and parentheses are nested, and there is no comma outside of them. -/
inductive Nested : List Tok → Prop
  | nil : Nested []
  | tok {t : Tok} {r : List Tok} : t.kind = .other → Nested r → Nested (t :: r)
  | group {o c : Tok} {i r : List Tok} :
      (o.kind = .lbracket ∧ c.kind = .rbracket) ∨ (o.kind = .lparen ∧ c.kind = .rparen) →
      Inner i → Nested r → Nested (o :: i ++ c :: r)

/-- Elements with commas between them. -/
inductive Elems : List Tok → List (List Tok) → Prop
  | one {e : List Tok} : Nested e → e ≠ [] → Elems e [e]
  | cons {e r : List Tok} {c : Tok} {es : List (List Tok)} : Nested e → e ≠ [] → c.kind = .comma →
      Elems r es → Elems (e ++ c :: r) (e :: es)

/-- The text of some elements with commas between them. -/
def listed : List Str → Str
  | [] => []
  | [e] => e
  | e :: es => e ++ ", ".toList ++ listed es

end Spec

end Verif.InitLit
