/-!
# The JSON library of the language server

Model of `/repo/src/lsp/cJSON.c` as the language server uses it: `cJSON_Parse` on every request,
`cJSON_PrintUnformatted` (and `cJSON_Print`) on every answer, `cJSON_GetObjectItem` to look a member
up.

A text is the list of its bytes (`Nat`s below 256).  A position of the C parse buffer is modelled by
the bytes from that position to the end of the buffer; `cJSON_Parse` passes `strlen + 1` as the
length of the buffer, so the list ends with the terminating zero.  `none` is `false` / `NULL`.

Simplifications: allocation never fails and the output buffer never reaches `INT_MAX` (`ensure`,
lines 492–581, is modelled in the unit `CJsonBuf`); a number that is written without fraction and exponent is the
integer it denotes (the `double` is exact up to 2^53; `valueint` saturates), any other number is
kept as its text, since `double`s are not modelled; the locale's decimal point is `.`; `cJSON_Raw`
and references are left out.
-/

namespace Verif.CJson

mutual

/-- A `cJSON` node.  /repo/src/lsp/cJSON.h:103-131.  `valuestring` and `string` are C strings: the
bytes before the terminator. -/
inductive Item where
  | null
  | fls
  | tru
  /-- a number written without fraction and exponent -/
  | num (i : Int)
  /-- any other number, by its text -/
  | real (t : List Nat)
  | str (s : List Nat)
  | arr (l : Items)
  | obj (m : Members)

/-- The children of an array: the `next` chain.  /repo/src/lsp/cJSON.h:105-110. -/
inductive Items where
  | nil
  | cons (v : Item) (l : Items)

/-- The children of an object, with their names.  /repo/src/lsp/cJSON.h:105-130. -/
inductive Members where
  | nil
  | cons (k : List Nat) (v : Item) (m : Members)

end

/-! ## Strings -/

/-- The value of a hexadecimal digit.  /repo/src/lsp/cJSON.c:676-691. -/
def hexVal (c : Nat) : Option Nat :=
  if 48 ≤ c ∧ c ≤ 57 then some (c - 48)
  else if 65 ≤ c ∧ c ≤ 70 then some (10 + c - 65)
  else if 97 ≤ c ∧ c ≤ 102 then some (10 + c - 97)
  else none

/-- `parse_hex4`: zero when one of the four is not a digit.  /repo/src/lsp/cJSON.c:669-702. -/
def hex4 (a b c d : Nat) : Nat :=
  match hexVal a, hexVal b, hexVal c, hexVal d with
  | some w, some x, some y, some z => (((w <<< 4) + x) <<< 4 + y) <<< 4 + z
  | _, _, _, _ => 0

/-- The UTF-8 bytes of a code point: `utf8_length`, `first_byte_mark` and the loop that writes the
continuation bytes from the last to the first.  /repo/src/lsp/cJSON.c:771-815. -/
def encode (c : Nat) : List Nat :=
  if c < 0x80 then [c &&& 0x7F]
  else if c < 0x800 then
    [((c >>> 6) ||| 0xC0) &&& 0xFF, (c ||| 0x80) &&& 0xBF]
  else if c < 0x10000 then
    [((c >>> 12) ||| 0xE0) &&& 0xFF, ((c >>> 6) ||| 0x80) &&& 0xBF, (c ||| 0x80) &&& 0xBF]
  else
    [((c >>> 18) ||| 0xF0) &&& 0xFF, ((c >>> 12) ||| 0x80) &&& 0xBF,
      ((c >>> 6) ||| 0x80) &&& 0xBF, (c ||| 0x80) &&& 0xBF]

/-- The code point of a surrogate pair.  /repo/src/lsp/cJSON.c:763. -/
def pair (u v : Nat) : Nat := 0x10000 + (((u &&& 0x3FF) <<< 10) ||| (v &&& 0x3FF))

/-- The escapes of one letter.  /repo/src/lsp/cJSON.c:905-925. -/
def simple (e : Nat) : Option Nat :=
  if e = 98 then some 8
  else if e = 102 then some 12
  else if e = 110 then some 10
  else if e = 114 then some 13
  else if e = 116 then some 9
  else if e = 34 ∨ e = 92 ∨ e = 47 then some e
  else none

/-- The search for the closing quote; the text before it and the text after it.
/repo/src/lsp/cJSON.c:843-868. -/
def scan : List Nat → Option (List Nat × List Nat)
  | [] => none
  | c :: r =>
    if c = 34 then some ([], r)
    else if c = 92 then
      match r with
      | [] => none
      | d :: r' => (scan r').map fun p => (c :: d :: p.1, p.2)
    else (scan r).map fun p => (c :: p.1, p.2)

/-- The second pass of `parse_string` (lines 887–941) with `utf16_literal_to_utf8` (706–826) written
out: the checks against `input_end` are the shape of the list.
/repo/src/lsp/cJSON.c:706-826, 887-941. -/
def decode : List Nat → Option (List Nat)
  | [] => some []
  | c :: r =>
    if c ≠ 92 then (decode r).map (c :: ·)
    else
      match r with
      | [] => none
      | e :: r1 =>
        if e = 117 then
          match r1 with
          | a :: b :: c :: d :: r2 =>
            if 0xDC00 ≤ hex4 a b c d ∧ hex4 a b c d ≤ 0xDFFF then none
            else if 0xD800 ≤ hex4 a b c d ∧ hex4 a b c d ≤ 0xDBFF then
              match r2 with
              | x :: y :: a' :: b' :: c' :: d' :: r3 =>
                if x ≠ 92 ∨ y ≠ 117 then none
                else if hex4 a' b' c' d' < 0xDC00 ∨ 0xDFFF < hex4 a' b' c' d' then none
                else (decode r3).map (encode (pair (hex4 a b c d) (hex4 a' b' c' d')) ++ ·)
              | _ => none
            else (decode r2).map (encode (hex4 a b c d) ++ ·)
          | _ => none
        else
          match simple e with
          | some x => (decode r1).map (x :: ·)
          | none => none

/-- What a reader of a C string sees: everything before the first zero byte (`strlen`, `strcmp`,
`print_string` all stop there). -/
def cstr (s : List Nat) : List Nat := s.takeWhile (· ≠ 0)

/-- `parse_string`: the value and the text after the closing quote.
/repo/src/lsp/cJSON.c:828-957. -/
def parseString : List Nat → Option (List Nat × List Nat)
  | [] => none
  | c :: r =>
    if c ≠ 34 then none
    else
      match scan r with
      | none => none
      | some (body, rest) => (decode body).map fun s => (cstr s, rest)

/-- A lower-case hexadecimal digit (`%04x`).  /repo/src/lsp/cJSON.c:1059. -/
def hexDigit (n : Nat) : Nat := if n < 10 then 48 + n else 87 + n

/-- One byte of a printed string.  /repo/src/lsp/cJSON.c:1018-1064. -/
def printByte (c : Nat) : List Nat :=
  if c > 31 ∧ c ≠ 34 ∧ c ≠ 92 then [c]
  else if c = 92 then [92, 92]
  else if c = 34 then [92, 34]
  else if c = 8 then [92, 98]
  else if c = 12 then [92, 102]
  else if c = 10 then [92, 110]
  else if c = 13 then [92, 114]
  else if c = 9 then [92, 116]
  else [92, 117, 48, 48, hexDigit (c / 16), hexDigit (c % 16)]

/-- The bytes of a printed string, without the quotes.  /repo/src/lsp/cJSON.c:1014-1066. -/
def printBytes : List Nat → List Nat
  | [] => []
  | c :: s => printByte c ++ printBytes s

/-- `print_string_ptr`.  /repo/src/lsp/cJSON.c:960-1072. -/
def printString (s : List Nat) : List Nat := 34 :: (printBytes s ++ [34])

/-- How many bytes beyond its length a string takes: one for each escape of a letter, five for each
other control byte.  /repo/src/lsp/cJSON.c:990-1013. -/
def escapes : List Nat → Nat
  | [] => 0
  | c :: s =>
    (if c = 34 ∨ c = 92 ∨ c = 8 ∨ c = 12 ∨ c = 10 ∨ c = 13 ∨ c = 9 then 1
     else if c < 32 then 5 else 0) + escapes s

/-- The space that `print_string_ptr` asks for: the bytes, the escapes, two quotes and the
terminator.  /repo/src/lsp/cJSON.c:1013-1016. -/
def printRoom (s : List Nat) : Nat := s.length + escapes s + 3

/-- How many backslashes the first pass of `parse_string` counted: `skipped_bytes`.
/repo/src/lsp/cJSON.c:847-860. -/
def skipped : List Nat → Nat
  | [] => 0
  | c :: r =>
    if c = 92 then
      match r with
      | [] => 1
      | _ :: r' => 1 + skipped r'
    else skipped r

/-- The space that `parse_string` allocates for the value: the length of the text from the opening
quote to the closing one, less the backslashes, plus one for the terminator.
/repo/src/lsp/cJSON.c:871-876. -/
def parseRoom (body : List Nat) : Nat := body.length + 1 - skipped body + 1

/-! ## Numbers -/

/-- `%d` of a number that is not negative. -/
def decimal (n : Nat) : List Nat :=
  if _h : n < 10 then [48 + n] else decimal (n / 10) ++ [48 + n % 10]
termination_by n

/-- `print_number` for a number equal to its `valueint`.  /repo/src/lsp/cJSON.c:616-619. -/
def printInt : Int → List Nat
  | .ofNat n => decimal n
  | .negSucc n => 45 :: decimal (n + 1)

/-- The bytes that `parse_number` copies.  /repo/src/lsp/cJSON.c:329-362. -/
def numChar (c : Nat) : Bool :=
  (48 ≤ c && c ≤ 57) || c = 43 || c = 45 || c = 101 || c = 69 || c = 46

/-- A decimal digit. -/
def isDigit (c : Nat) : Bool := 48 ≤ c && c ≤ 57

/-- The number that decimal digits denote. -/
def valueOf (ds : List Nat) : Nat := ds.foldl (fun n d => 10 * n + (d - 48)) 0

/-- The exponent that `strtod` consumes: a letter, an optional sign and at least one digit. -/
def expLen (t : List Nat) : Nat :=
  match t with
  | [] => 0
  | e :: r =>
    if e ≠ 101 ∧ e ≠ 69 then 0
    else
      match r with
      | [] => 0
      | s :: r' =>
        if s = 43 ∨ s = 45 then
          if (r'.takeWhile isDigit).length = 0 then 0 else 2 + (r'.takeWhile isDigit).length
        else 1 + (r.takeWhile isDigit).length - (if (r.takeWhile isDigit).length = 0 then 1 else 0)

/-- The fraction that `strtod` consumes, its point included. -/
def fracLen (t : List Nat) : Nat :=
  match t with
  | [] => 0
  | c :: r => if c = 46 then 1 + (r.takeWhile isDigit).length else 0

/-- `strtod` on bytes that are all `numChar`s and do not start with `+`: the number and how many
bytes it took, `none` when it took none (C standard 7.22.1.3: an optional sign, digits with an
optional point and at least one digit among them, an optional exponent). -/
def strtod (t : List Nat) : Option (Item × Nat) :=
  let sgn := match t with
    | [] => 0
    | c :: _ => if c = 45 then 1 else 0
  let ds := (t.drop sgn).takeWhile isDigit
  let r := (t.drop sgn).drop ds.length
  let f := fracLen r
  if ds.length = 0 ∧ f ≤ 1 then none
  else
    let e := expLen (r.drop f)
    if f = 0 ∧ e = 0 then
      some (.num (if sgn = 1 then -(valueOf ds : Int) else (valueOf ds : Int)), sgn + ds.length)
    else some (.real (t.take (sgn + ds.length + f + e)), sgn + ds.length + f + e)

/-- `parse_number`.  /repo/src/lsp/cJSON.c:310-403. -/
def parseNumber (t : List Nat) : Option (Item × List Nat) :=
  (strtod (t.takeWhile numChar)).map fun p => (p.1, t.drop p.2)

/-! ## Values -/

/-- `buffer_skip_whitespace`: every byte up to the space; at the end of the buffer it steps back to
the last byte.  /repo/src/lsp/cJSON.c:1097-1120. -/
def skip (t : List Nat) : List Nat :=
  match t.dropWhile (· ≤ 32) with
  | [] => t.drop (t.length - 1)
  | c :: r => c :: r

/-- The `do … while` loop of `parse_array`, from the text in front of an element to the text after
the closing bracket; `pv` is `parse_value`.  Each turn consumes a comma, so the length of the text
bounds the number of turns (`loops_fuel` in `Val`: more turns change nothing).
/repo/src/lsp/cJSON.c:1549-1589. -/
def elems (pv : List Nat → Option (Item × List Nat)) : Nat → List Nat → Option (Items × List Nat)
  | 0, _ => none
  | n + 1, t =>
    match pv (skip t) with
    | none => none
    | some (v, t1) =>
      match skip t1 with
      | [] => none
      | c :: r =>
        if c = 44 then (elems pv n r).map fun p => (.cons v p.1, p.2)
        else if c = 93 then some (.cons v .nil, r)
        else none

/-- `parse_array` after its opening bracket.  /repo/src/lsp/cJSON.c:1536-1604. -/
def parseArray (pv : List Nat → Option (Item × List Nat)) (t : List Nat) :
    Option (Item × List Nat) :=
  match skip t with
  | [] => none
  | c :: r =>
    if c = 93 then some (.arr .nil, r)
    else (elems pv (c :: r).length (c :: r)).map fun p => (.arr p.1, p.2)

/-- The `do … while` loop of `parse_object`.  /repo/src/lsp/cJSON.c:1714-1771. -/
def members (pv : List Nat → Option (Item × List Nat)) :
    Nat → List Nat → Option (Members × List Nat)
  | 0, _ => none
  | n + 1, t =>
    match parseString (skip t) with
    | none => none
    | some (k, t1) =>
      match skip t1 with
      | [] => none
      | c :: r =>
        if c ≠ 58 then none
        else
          match pv (skip r) with
          | none => none
          | some (v, t2) =>
            match skip t2 with
            | [] => none
            | c :: r =>
              if c = 44 then (members pv n r).map fun p => (.cons k v p.1, p.2)
              else if c = 125 then some (.cons k v .nil, r)
              else none

/-- `parse_object` after its opening brace.  /repo/src/lsp/cJSON.c:1695-1785. -/
def parseObject (pv : List Nat → Option (Item × List Nat)) (t : List Nat) :
    Option (Item × List Nat) :=
  match skip t with
  | [] => none
  | c :: r =>
    if c = 125 then some (.obj .nil, r)
    else (members pv (c :: r).length (c :: r)).map fun p => (.obj p.1, p.2)

/-- The value and the text after it, if a text starts with a given word (`strncmp`). -/
def word (w : List Nat) (t : List Nat) : Bool := t.take w.length == w

/-- `parse_value`; the first argument is how many more levels may be opened, `CJSON_NESTING_LIMIT`
less `depth`.  /repo/src/lsp/cJSON.c:1385-1442, 1524-1528, 1684-1688. -/
def parseValue : Nat → List Nat → Option (Item × List Nat)
  | d, t =>
    if word [110, 117, 108, 108] t then some (.null, t.drop 4)
    else if word [102, 97, 108, 115, 101] t then some (.fls, t.drop 5)
    else if word [116, 114, 117, 101] t then some (.tru, t.drop 4)
    else
      match t with
      | [] => none
      | c :: r =>
        if c = 34 then (parseString (c :: r)).map fun p => (.str p.1, p.2)
        else if c = 45 ∨ (48 ≤ c ∧ c ≤ 57) then parseNumber (c :: r)
        else if c = 91 then
          match d with
          | 0 => none
          | d + 1 => parseArray (parseValue d) r
        else if c = 123 then
          match d with
          | 0 => none
          | d + 1 => parseObject (parseValue d) r
        else none

/-- `CJSON_NESTING_LIMIT`.  /repo/src/lsp/cJSON.h:145-147. -/
def limit : Nat := 1000

/-- `skip_utf8_bom`.  /repo/src/lsp/cJSON.c:1123-1137. -/
def skipBom (t : List Nat) : List Nat :=
  if 4 < t.length ∧ t.take 3 = [0xEF, 0xBB, 0xBF] then t.drop 3 else t

/-- `cJSON_Parse` on a C string with the given bytes.  What follows the value is not looked at
(`require_null_terminated` is 0).  /repo/src/lsp/cJSON.c:1139-1244. -/
def parse (text : List Nat) : Option Item :=
  (parseValue limit (skip (skipBom (text ++ [0])))).map (·.1)

/-! ## Printing -/

/-- `depth` tabs.  /repo/src/lsp/cJSON.c:1837-1841. -/
def tabs (n : Nat) : List Nat := List.replicate n 9

mutual

/-- `print_value`; `fmt` is `format`, `d` is `depth`.
/repo/src/lsp/cJSON.c:1445-1516, 1617-1676, 1797-1920. -/
def printValue (fmt : Bool) (d : Nat) : Item → List Nat
  | .null => [110, 117, 108, 108]
  | .fls => [102, 97, 108, 115, 101]
  | .tru => [116, 114, 117, 101]
  | .num i => printInt i
  | .real t => t
  | .str s => printString s
  | .arr l => 91 :: (printElems fmt (d + 1) l ++ [93])
  | .obj m =>
    123 :: ((if fmt then [10] else []) ++ printMembers fmt (d + 1) m ++
      (if fmt then tabs d else []) ++ [125])

/-- The loop of `print_array`.  /repo/src/lsp/cJSON.c:1641-1663. -/
def printElems (fmt : Bool) (d : Nat) : Items → List Nat
  | .nil => []
  | .cons v .nil => printValue fmt d v
  | .cons v (.cons w l) =>
    printValue fmt d v ++ (if fmt then [44, 32] else [44]) ++ printElems fmt d (.cons w l)

/-- The loop of `print_object`.  /repo/src/lsp/cJSON.c:1827-1894. -/
def printMembers (fmt : Bool) (d : Nat) : Members → List Nat
  | .nil => []
  | .cons k v .nil =>
    (if fmt then tabs d else []) ++ printString k ++ (if fmt then [58, 9] else [58]) ++
      printValue fmt d v ++ (if fmt then [10] else [])
  | .cons k v (.cons k' w m) =>
    (if fmt then tabs d else []) ++ printString k ++ (if fmt then [58, 9] else [58]) ++
      printValue fmt d v ++ (if fmt then [44, 10] else [44]) ++ printMembers fmt d (.cons k' w m)

end

/-- `cJSON_Print` (`fmt`) and `cJSON_PrintUnformatted`.  /repo/src/lsp/cJSON.c:1253-1345. -/
def print (fmt : Bool) (v : Item) : List Nat := printValue fmt 0 v

/-! ## Looking up -/

/-- `tolower` in the C locale. -/
def lower (c : Nat) : Nat := if 65 ≤ c ∧ c ≤ 90 then c + 32 else c

/-- `get_object_item`, the comparison ignoring case or not.  /repo/src/lsp/cJSON.c:1969-2005. -/
def find (exact : Bool) (k : List Nat) : Members → Option Item
  | .nil => none
  | .cons k' v m =>
    if (if exact then k = k' else k.map lower = k'.map lower) then some v else find exact k m

/-- `add_item_to_object`: the new member goes to the end; a member of the same name stays.
/repo/src/lsp/cJSON.c:2050-2084, 2119-2164. -/
def add (k : List Nat) (v : Item) : Members → Members
  | .nil => .cons k v .nil
  | .cons k' v' m => .cons k' v' (add k v m)

/-! ## Specification -/

namespace Spec

/-- The value of a hexadecimal digit, by RFC 8259. -/
inductive Hex : Nat → Nat → Prop where
  | digit (n : Nat) (h : n < 10) : Hex (48 + n) n
  | upper (n : Nat) (h : n < 6) : Hex (65 + n) (10 + n)
  | lower (n : Nat) (h : n < 6) : Hex (97 + n) (10 + n)

/-- Four hexadecimal digits and the code unit they write. -/
def Unit (ds : List Nat) (u : Nat) : Prop :=
  ∃ a b c d w x y z, ds = [a, b, c, d] ∧ Hex a w ∧ Hex b x ∧ Hex c y ∧ Hex d z ∧
    u = 4096 * w + 256 * x + 16 * y + z

/-- The UTF-8 form of a code point, by RFC 3629. -/
def utf8 (c : Nat) : List Nat :=
  if c < 128 then [c]
  else if c < 2048 then [192 + c / 64, 128 + c % 64]
  else if c < 65536 then [224 + c / 4096, 128 + c / 64 % 64, 128 + c % 64]
  else [240 + c / 262144, 128 + c / 4096 % 64, 128 + c / 64 % 64, 128 + c % 64]

/-- The escapes of one letter, by RFC 8259. -/
def letters : List (Nat × Nat) :=
  [(34, 34), (92, 92), (47, 47), (98, 8), (102, 12), (110, 10), (114, 13), (116, 9)]

/-- The text between the quotes of a JSON string and the bytes it stands for.  A raw byte is any but
the quote and the backslash (RFC 8259 also forbids raw control bytes). -/
inductive Str : List Nat → List Nat → Prop where
  | nil : Str [] []
  | raw (c : Nat) {t s : List Nat} (hq : c ≠ 34) (hb : c ≠ 92) (h : Str t s) : Str (c :: t) (c :: s)
  | letter (e x : Nat) {t s : List Nat} (he : (e, x) ∈ letters) (h : Str t s) :
      Str (92 :: e :: t) (x :: s)
  | code (ds : List Nat) (u : Nat) {t s : List Nat} (hu : Unit ds u)
      (hs : u < 0xD800 ∨ 0xDFFF < u) (h : Str t s) :
      Str (92 :: 117 :: (ds ++ t)) (utf8 u ++ s)
  | pair (ds es : List Nat) (hi lo : Nat) {t s : List Nat}
      (hu : Unit ds (0xD800 + hi)) (hv : Unit es (0xDC00 + lo)) (hh : hi < 1024) (hl : lo < 1024)
      (h : Str t s) :
      Str (92 :: 117 :: (ds ++ 92 :: 117 :: (es ++ t))) (utf8 (0x10000 + 1024 * hi + lo) ++ s)

/-- `Cut t s`: the escapes of `t` are read up to a `\u` whose four digits are all zero or are not
all digits, and the rest of the string is lost; `s` is what remains. -/
def Cut (t s : List Nat) : Prop :=
  ∃ p ds q, t = p ++ 92 :: 117 :: (ds ++ q) ∧ Str p s ∧ ds.length = 4 ∧ ∀ u, Unit ds u → u = 0

/-- The number that decimal digits write. -/
def value : List Nat → Nat
  | [] => 0
  | d :: ds => (d - 48) * 10 ^ ds.length + value ds

/-- Decimal digits. -/
def Digits (ds : List Nat) : Prop := ∀ d ∈ ds, 48 ≤ d ∧ d ≤ 57

/-- An optional minus. -/
def sign (neg : Bool) : List Nat := if neg then [45] else []

/-- A fraction: nothing, or a point and digits. -/
def Frac (t : List Nat) : Prop := t = [] ∨ ∃ ds, t = 46 :: ds ∧ Digits ds

/-- An exponent: nothing, or a letter, an optional sign and digits. -/
def Exp (t : List Nat) : Prop :=
  t = [] ∨ ∃ e sg ds, t = e :: (sg ++ ds) ∧ (e = 101 ∨ e = 69) ∧
    (sg = [] ∨ sg = [43] ∨ sg = [45]) ∧ Digits ds ∧ ds ≠ []

/-- The text of a number.  RFC 8259 (`strict`) wants an integer part without a leading zero and a
digit after the point; the library only wants a digit. -/
inductive Num (strict : Bool) : Item → List Nat → Prop where
  | int (neg : Bool) (ds : List Nat) (hd : Digits ds) (hn : ds ≠ [])
      (hs : strict = true → ds.head? = some 48 → ds = [48]) :
      Num strict (.num (if neg then -(value ds : Int) else value ds)) (sign neg ++ ds)
  | real (neg : Bool) (ds fr ex : List Nat) (hd : Digits ds) (hf : Frac fr) (he : Exp ex)
      (hne : fr ≠ [] ∨ ex ≠ []) (hn : ds ≠ [] ∨ 1 < fr.length)
      (hs : strict = true → ds ≠ [] ∧ (ds.head? = some 48 → ds = [48]) ∧ fr ≠ [46]) :
      Num strict (.real (sign neg ++ ds ++ fr ++ ex)) (sign neg ++ ds ++ fr ++ ex)

/-- The tokens of a document: which bytes are blank, what numbers look like, what the text between
the quotes of a string stands for. -/
structure Lex where
  blank : Nat → Prop
  number : Item → List Nat → Prop
  string : List Nat → List Nat → Prop

/-- RFC 8259, for strings without the character U+0000. -/
def rfc : Lex where
  blank c := c = 32 ∨ c = 9 ∨ c = 10 ∨ c = 13
  number := Num true
  string t s := Str t s ∧ 0 ∉ s

/-- What the library accepts. -/
def loose : Lex where
  blank c := c ≤ 32
  number := Num false
  string t s := Str t s ∨ Cut t s

/-- Blank text. -/
def Blank (L : Lex) (t : List Nat) : Prop := ∀ c ∈ t, L.blank c

mutual

/-- `Val L d v t`: the text `t` is JSON for the value `v`, and arrays and objects are nested at most
`d` deep in it (RFC 8259, sections 2 to 7, over the tokens `L`). -/
inductive Val (L : Lex) : Nat → Item → List Nat → Prop where
  | null (d : Nat) : Val L d .null [110, 117, 108, 108]
  | fls (d : Nat) : Val L d .fls [102, 97, 108, 115, 101]
  | tru (d : Nat) : Val L d .tru [116, 114, 117, 101]
  | num (d : Nat) (v : Item) (t : List Nat) (h : L.number v t) : Val L d v t
  | str (d : Nat) (t s : List Nat) (h : L.string t s) : Val L d (.str s) (34 :: (t ++ [34]))
  | arr0 (d : Nat) (w : List Nat) (hw : Blank L w) : Val L (d + 1) (.arr .nil) (91 :: (w ++ [93]))
  | arr (d : Nat) (l : Items) (t : List Nat) (h : Elems L d l t) :
      Val L (d + 1) (.arr l) (91 :: (t ++ [93]))
  | obj0 (d : Nat) (w : List Nat) (hw : Blank L w) :
      Val L (d + 1) (.obj .nil) (123 :: (w ++ [125]))
  | obj (d : Nat) (m : Members) (t : List Nat) (h : Mems L d m t) :
      Val L (d + 1) (.obj m) (123 :: (t ++ [125]))

/-- Elements separated by commas, blanks around them. -/
inductive Elems (L : Lex) : Nat → Items → List Nat → Prop where
  | one (d : Nat) (v : Item) (w t w' : List Nat) (hw : Blank L w) (hw' : Blank L w')
      (h : Val L d v t) : Elems L d (.cons v .nil) (w ++ (t ++ w'))
  | more (d : Nat) (v : Item) (l : Items) (w t w' r : List Nat) (hw : Blank L w)
      (hw' : Blank L w') (h : Val L d v t) (hr : Elems L d l r) :
      Elems L d (.cons v l) (w ++ (t ++ (w' ++ 44 :: r)))

/-- Members separated by commas, blanks around the tokens. -/
inductive Mems (L : Lex) : Nat → Members → List Nat → Prop where
  | one (d : Nat) (k : List Nat) (v : Item) (w kt w1 w2 t w' : List Nat) (hw : Blank L w)
      (hk : L.string kt k) (hw1 : Blank L w1) (hw2 : Blank L w2) (hw' : Blank L w')
      (h : Val L d v t) :
      Mems L d (.cons k v .nil) (w ++ 34 :: (kt ++ 34 :: (w1 ++ 58 :: (w2 ++ (t ++ w')))))
  | more (d : Nat) (k : List Nat) (v : Item) (m : Members) (w kt w1 w2 t w' r : List Nat)
      (hw : Blank L w) (hk : L.string kt k) (hw1 : Blank L w1) (hw2 : Blank L w2)
      (hw' : Blank L w') (h : Val L d v t) (hr : Mems L d m r) :
      Mems L d (.cons k v m)
        (w ++ 34 :: (kt ++ 34 :: (w1 ++ 58 :: (w2 ++ (t ++ (w' ++ 44 :: r))))))

end

/-- The members of an object in order. -/
def list : Members → List (List Nat × Item)
  | .nil => []
  | .cons k v m => (k, v) :: list m

/-- Two names that differ at most in the case of ASCII letters. -/
inductive SameLetters : List Nat → List Nat → Prop where
  | nil : SameLetters [] []
  | same (c : Nat) {a b : List Nat} (h : SameLetters a b) : SameLetters (c :: a) (c :: b)
  | up (n : Nat) (hn : n < 26) {a b : List Nat} (h : SameLetters a b) :
      SameLetters ((65 + n) :: a) ((97 + n) :: b)
  | down (n : Nat) (hn : n < 26) {a b : List Nat} (h : SameLetters a b) :
      SameLetters ((97 + n) :: a) ((65 + n) :: b)

mutual

/-- How deep arrays and objects are nested in a value. -/
def depth : Item → Nat
  | .arr l => 1 + depthElems l
  | .obj m => 1 + depthMems m
  | _ => 0

/-- The deepest element. -/
def depthElems : Items → Nat
  | .nil => 0
  | .cons v l => max (depth v) (depthElems l)

/-- The deepest member. -/
def depthMems : Members → Nat
  | .nil => 0
  | .cons _ v m => max (depth v) (depthMems m)

end

mutual

/-- Values whose numbers are integers and whose strings are C strings of bytes. -/
def Plain : Item → Prop
  | .real _ => False
  | .str s => ∀ c ∈ s, 0 < c ∧ c < 256
  | .arr l => PlainElems l
  | .obj m => PlainMems m
  | _ => True

/-- All elements are plain. -/
def PlainElems : Items → Prop
  | .nil => True
  | .cons v l => Plain v ∧ PlainElems l

/-- All members are plain. -/
def PlainMems : Members → Prop
  | .nil => True
  | .cons k v m => (∀ c ∈ k, 0 < c ∧ c < 256) ∧ Plain v ∧ PlainMems m

end

end Spec

end Verif.CJson
