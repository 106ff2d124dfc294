import Verif.Generics.Model
import Verif.Json.Lemmas

/-!
# `@derive(Eq, Clone, FromJson, ToJson)`

Models `generate_derive_impls`, /repo/src/parser/parser_core.c:962-1324, the meaning of the
methods it writes, the code of `==` (/repo/src/codegen/codegen.c:257-410) for the comparisons in
them, and the getters of /repo/std/json.zc:268-467 they call.

Simplified: the methods are Zen C text that the compiler then reads like any other; here the text
is kept for the sizes of the buffers it is written to, and the meaning is given beside it.
Aliases, slices, bit fields and `use` are left out.  `Res.panic` stands for a program the C
compiler rejects.
-/

namespace Verif.Derive

open Generics (Name Ty cText)
open Json (Json Items Entries Table)

/-! ## Programs and values -/

mutual
/-- A value in memory.  `D` stands for `double` and `float`.  `addr` is a pointer, or the code
of a function; `cstr` a `char*` with the text it points at, `none` for NULL; `string` and `strs`
are a `String` and a `Vec<String>` with their contents; `enm` is the tag and the payload. -/
inductive Val (D : Type) where
  | num (n : Int)
  | bool (b : Bool)
  | dbl (d : D)
  | addr (a : Nat)
  | cstr (s : Option (List UInt8))
  | string (s : List UInt8)
  | strs (s : List (List UInt8))
  | strct (vs : Vals D)
  | enm (tag : Nat) (payload : Vals D)
  | arr (vs : Vals D)
/-- Fields of a struct, payload of a variant or elements of an array. -/
inductive Vals (D : Type) where
  | nil
  | cons (v : Val D) (vs : Vals D)
end

/-- `NODE_FIELD`, /repo/src/parser/parser_struct.c:972-979. -/
structure Field where
  name : Name
  ty : Ty

/-- How `T__eq` came to be.  `custom` is written by hand with a pointer as its second argument,
like `String::eq` (/repo/std/string.zc:92), `byValue` with a value, like `Vec::eq`
(/repo/std/vec.zc:269). -/
inductive EqImpl (D : Type) where
  | none
  | derived
  | custom (f : Val D → Val D → Res Bool)
  | byValue

/-- What a declaration declares: the fields of a struct or the payloads of the variants. -/
inductive Body where
  | strct (fs : List Field)
  | enm (variants : List (List Ty))

/-- A struct or enum of the program; `toJson` and `fromJson` tell whether they are derived. -/
structure Decl (D : Type) where
  name : Name
  body : Body
  eq : EqImpl D
  toJson : Bool := false
  fromJson : Bool := false

variable {D : Type}

/-- `find_struct_def`, /repo/src/parser/parser_utils.c:1071-1124, among the declarations read so
far; also the declarations before it. -/
def lookup (n : Name) : List (Decl D) → List (Decl D) → Option (List (Decl D) × Decl D)
  | _, [] => none
  | seen, d :: r => if d.name = n then some (seen, d) else lookup n (seen ++ [d]) r

/-- `find_struct_def` with the whole list. -/
def find (P : List (Decl D)) (n : Name) : Option (Decl D) := (lookup n [] P).map (·.2)

/-! ## Eq -/

/-- One comparison of the method, parser_core.c:1014-1038. -/
inductive Cmp where
  | tags
  | call (ft : Name)
  | plain
  deriving DecidableEq

/-- `is_ptr`, parser_core.c:1016-1025. -/
def isPtr (t : Ty) : Bool :=
  (match t with | .ptr _ => true | _ => false) || '*' ∈ cText t

/-- Which comparison is written for a field, parser_core.c:1027-1043; `before` are the
declarations the parser has read. -/
def cmpOf (before : List (Decl D)) (t : Ty) : Cmp :=
  match (if isPtr t then none else find before (cText t)) with
  | some d => match d.body with
    | .enm _ => .tags
    | .strct _ => .call (cText t)
  | none => .plain

/-- The text of a comparison, parser_core.c:1032-1042. -/
def cmpText (f : Name) : Cmp → Name
  | .tags => "self.".toList ++ f ++ ".tag == other.".toList ++ f ++ ".tag".toList
  | .call ft => ft ++ "__eq(&self.".toList ++ f ++ ", &other.".toList ++ f ++ ")".toList
  | .plain => "self.".toList ++ f ++ " == other.".toList ++ f

/-- Writing a text and its final 0 into a buffer of `n` bytes with `sprintf` or `strcat`
(parser_core.c:1003-1056 and 1195-1320). -/
def into (n : Nat) (t : Name) : Res Name := if t.length < n then .ok t else .ub

/-- `if (!first) strcat(body, ...)`, parser_core.c:1009-1012 and 1209-1212. -/
def sep (first : Bool) (n : Nat) (s body : Name) : Res Name :=
  if first then .ok body else into n (body ++ s)

/-- The loop over the fields, parser_core.c:1003-1046: `strcat` to `body[4096]`, `sprintf` to
`cmp[256]`. -/
def eqLoop (before : List (Decl D)) : Bool → List Field → Name → Res (Bool × Name)
  | first, [], body => .ok (first, body)
  | first, f :: fs, body => do
      let body ← sep first 4096 " && ".toList body
      let cmp ← into 256 (cmpText f.name (cmpOf before f.ty))
      let body ← into 4096 (body ++ cmp)
      eqLoop before false fs body

/-- The body of `eq`, parser_core.c:985-1052. -/
def eqBody (before : List (Decl D)) : Body → Res Name
  | .enm _ => into 4096 "return self.tag == other.tag;".toList
  | .strct fs => do
      let body ← into 4096 "return ".toList
      let r ← eqLoop before true fs body
      let body ← sep (!r.1) 4096 "true".toList r.2
      into 4096 (body ++ ";".toList)

/-- The text of the `impl`, parser_core.c:1053-1056. -/
def eqText (before : List (Decl D)) (d : Decl D) : Res Name := do
  let body ← eqBody before d.body
  into 5120 ("impl ".toList ++ d.name ++ " { fn eq(self, other: ".toList ++ d.name ++
    "*) -> bool { ".toList ++ body ++ " } }".toList)

/-- What a comparison does when the program runs. -/
inductive How where
  | tags
  | eqOf (n : Name)
  | strcmp
  | cEq
  deriving DecidableEq

/-- The texts of `IS_BASIC_TYPE`, /repo/src/constants.h:19-77. -/
def basics : List String :=
  ["int", "uint", "i8", "I8", "u8", "U8", "i16", "I16", "u16", "U16", "i32", "I32", "u32", "U32",
    "i64", "I64", "u64", "U64", "i128", "I128", "u128", "U128", "byte", "rune", "long", "short",
    "ulong", "ushort", "int8_t", "uint8_t", "int16_t", "uint16_t", "int32_t", "uint32_t",
    "int64_t", "uint64_t", "bool", "char", "void", "float", "f32", "F32", "double", "f64", "F64", "usize", "size_t", "isize",
    "ptrdiff_t", "ssize_t", "__auto_type"]

/-- `IS_BASIC_TYPE`, /repo/src/constants.h:74-77. -/
def isBasic (t : Name) : Bool := basics.any (·.toList == t)

/-- The code of `==`, codegen.c:257-410: `all` are the declarations of the whole program. -/
def plainHow (all : List (Decl D)) (ft : Name) : How :=
  if '*' ∉ ft ∧ !isBasic ft ∧ (find all ft).isSome then .eqOf ft
  else if ft = "string".toList ∨ ft = "char*".toList ∨ ft = "const char*".toList then .strcmp
  else .cEq

/-- What the comparison of a field (parser_core.c:1027-1043) does once compiled
(codegen.c:257-410). -/
def how (before all : List (Decl D)) (t : Ty) : How :=
  match cmpOf before t with
  | .tags => .tags
  | .call ft => .eqOf ft
  | .plain => plainHow all (cText t)

/-- `==` on two `double`s, and `(double)` and `(int)` of the machine.  `toInt` is `none` for
infinities and NaN; that small numbers survive is a promise of ISO C. -/
structure Flt (D : Type) where
  eq : D → D → Bool
  ofInt : Int → D
  toInt : D → Option Int
  round : ∀ i : Int, -2 ^ 31 ≤ i → i < 2 ^ 31 → toInt (ofInt i) = some i

mutual
/-- The comparison of two values, the meaning of the text of parser_core.c:985-1052.  `same` tells whether they are parts of one object (`a == a`):
then their arrays have the same address. -/
def eqVal (F : Flt D) (P : List (Decl D)) (same : Bool) : How → Val D → Val D → Res Bool
  | .tags, .enm i _, .enm j _ => .ok (i == j)
  | .strcmp, .cstr (some s), .cstr (some t) => .ok (s == t)
  | .strcmp, .cstr _, .cstr _ => .ub
  | .cEq, .num a, .num b => .ok (a == b)
  | .cEq, .bool a, .bool b => .ok (a == b)
  | .cEq, .dbl a, .dbl b => .ok (F.eq a b)
  | .cEq, .addr a, .addr b => .ok (a == b)
  | .cEq, .arr _, .arr _ => .ok same
  | .eqOf n, a, b =>
    match lookup n [] P with
    | none => .panic
    | some (before, d) =>
      match d.eq with
      | .none => .panic
      | .byValue => .panic
      | .custom f => f a b
      | .derived =>
        match d.body, a, b with
        | .strct fs, .strct vs, .strct ws => eqVals F P same before fs vs ws
        | .enm _, .enm i _, .enm j _ => .ok (i == j)
        | _, _, _ => .panic
  | _, _, _ => .panic
/-- The fields from left to right, with `&&` (parser_core.c:1003-1046). -/
def eqVals (F : Flt D) (P : List (Decl D)) (same : Bool) (before : List (Decl D)) :
    List Field → Vals D → Vals D → Res Bool
  | [], .nil, .nil => .ok true
  | f :: fs, .cons v vs, .cons w ws => do
      let b ← eqVal F P same (how before P f.ty) v w
      if b then eqVals F P same before fs vs ws else .ok false
  | _, _, _ => .panic
end

/-- `a == b` and `T::eq(&a, &b)` for a declared type (codegen.c:257-410). -/
def derivedEq (F : Flt D) (P : List (Decl D)) (same : Bool) (n : Name) (v w : Val D) : Res Bool :=
  eqVal F P same (.eqOf n) v w

/-! ## Clone -/

/-- The text of the `impl`, parser_core.c:972-976. -/
def cloneText (n : Name) : Res Name :=
  into 1024 ("impl ".toList ++ n ++ " { fn clone(self) -> ".toList ++ n ++
    " { return *self; } }".toList)

/-- `return *self;` (parser_core.c:972-976): the words of the object are copied. -/
def derivedClone (v : Val D) : Val D := v

/-- `free`: undefined unless the block is allocated. -/
def release (a : Nat) (heap : List Nat) : Res (List Nat) :=
  if a ∈ heap then .ok (heap.erase a) else .ub

/-- Dropping an object: the blocks it owns are freed in order. -/
def releaseAll : List Nat → List Nat → Res (List Nat)
  | [], heap => .ok heap
  | a :: r, heap => do releaseAll r (← release a heap)

/-! ## JSON -/

/-- `strstr` finds it (parser_core.c:1130 and 1277). -/
def hasSub (w : Name) : Name → Bool
  | [] => w.isEmpty
  | c :: t => w.isPrefixOf (c :: t) || hasSub w t

/-- How the text of its type makes a field be treated, parser_core.c:1109-1189, 1269-1311. -/
inductive JKind where
  | int
  | dbl
  | bool
  | cstr
  | string
  | strs
  | nested
  deriving DecidableEq

/-- `is_int_type`, parser_core.c:1110-1115. -/
def intTexts : List Name :=
  ["int".toList, "int32_t".toList, "i32".toList, "i64".toList, "int64_t".toList, "u32".toList,
    "uint32_t".toList, "u64".toList, "uint64_t".toList, "usize".toList, "size_t".toList]

/-- The choice by the text of the type, parser_core.c:1109-1189. -/
def jkind (ft : Name) : JKind :=
  if ft ∈ intTexts then .int
  else if ft = "double".toList then .dbl
  else if ft = "bool".toList then .bool
  else if ft = "char*".toList then .cstr
  else if ft = "String".toList then .string
  else if hasSub "Vec".toList ft ∧ hasSub "String".toList ft then .strs
  else .nested

/-- A field name as a C string (in the texts of parser_core.c:1109-1311). -/
def key (n : Name) : List UInt8 := n.map fun c => UInt8.ofNat c.toNat

/-- `strdup(s)` of the text of a `String` (`c_str`): up to the first NUL. -/
def cut (s : List UInt8) : List UInt8 := s.takeWhile (· ≠ 0)

/-- The loop over a `Vec<String>`, parser_core.c:1296-1306. -/
def items : List (List UInt8) → Items D
  | [] => .nil
  | s :: r => .cons (.str (cut s)) (items r)

mutual
/-- The value set for a field, parser_core.c:1276-1311. -/
def toVal (F : Flt D) (tb : Table D) (P : List (Decl D)) (ft : Name) :
    JKind → Val D → Res (Json D)
  | .int, .num n => .ok (.num (F.ofInt n))
  | .dbl, .dbl d => .ok (.num d)
  | .bool, .bool b => .ok (.bool b)
  | .cstr, .cstr (some s) => .ok (.str s)
  | .cstr, .cstr none => .ub
  | .string, .string s => .ok (.str (cut s))
  | .strs, .strs l => .ok (.arr (items l))
  | .nested, .strct vs =>
    match find P ft with
    | some d => match d.toJson, d.body with
      | true, .strct fs => do pure (.obj (← toObj F tb P fs vs .nil))
      | _, _ => .panic
    | none => .panic
  | _, _ => .panic
/-- `_obj.set` for every field, parser_core.c:1262-1318. -/
def toObj (F : Flt D) (tb : Table D) (P : List (Decl D)) :
    List Field → Vals D → Entries D → Res (Entries D)
  | [], .nil, es => .ok es
  | f :: fs, .cons v vs, es => do
      let j ← toVal F tb P (cText f.ty) (jkind (cText f.ty)) v
      toObj F tb P fs vs (tb.put es (key f.name) j)
  | _, _, _ => .panic
end

/-- `JsonValue::get`, /repo/std/json.zc:347-355. -/
def jget (j : Json D) (k : List UInt8) : Option (Json D) :=
  match j with
  | .obj es => es.get k
  | _ => none

/-- `(int)d`: undefined unless the integral part is an `int`. -/
def toC (F : Flt D) (d : D) : Res Int :=
  match F.toInt d with
  | none => .ub
  | some i => if -2 ^ 31 ≤ i ∧ i < 2 ^ 31 then .ok i else .ub

/-- An `int` stored in a field of a type with the given text: unsigned types wrap. -/
def conv (ft : Name) (i : Int) : Int :=
  if ft = "u32".toList ∨ ft = "uint32_t".toList then i % 2 ^ 32
  else if ft = "u64".toList ∨ ft = "uint64_t".toList ∨ ft = "usize".toList ∨ ft = "size_t".toList
  then i % 2 ^ 64
  else i

/-- `(*j).get_int(k).unwrap_or(0)`, json.zc:308-313 and 366-373. -/
def getInt (F : Flt D) (j : Json D) (k : List UInt8) : Res Int :=
  match jget j k with
  | some (.num d) => toC F d
  | _ => .ok 0

/-- `(*j).get_float(k).unwrap_or(0.0)`, json.zc:315-320 and 375-382. -/
def getFloat (F : Flt D) (j : Json D) (k : List UInt8) : D :=
  match jget j k with
  | some (.num d) => d
  | _ => F.ofInt 0

/-- `(*j).get_bool(k).unwrap_or(false)`, json.zc:322-327 and 384-391. -/
def getBool (j : Json D) (k : List UInt8) : Bool :=
  match jget j k with
  | some (.bool b) => b
  | _ => false

/-- `(*j).get_string(k).unwrap_or("")`, json.zc:301-306 and 357-364. -/
def getString (j : Json D) (k : List UInt8) : List UInt8 :=
  match jget j k with
  | some (.str s) => s
  | _ => []

/-- The loop that fills a `Vec<String>`, parser_core.c:1152-1166: other elements are skipped. -/
def strings : Items D → List (List UInt8)
  | .nil => []
  | .cons (.str s) r => s :: strings r
  | .cons _ r => strings r

/-- `(*j).get_array(k)` and the loop. -/
def getStrings (j : Json D) (k : List UInt8) : List (List UInt8) :=
  match jget j k with
  | some (.arr xs) => strings xs
  | _ => []

theorem get_lt {k : List UInt8} {v : Json D} : ∀ {es : Entries D}, es.get k = some v →
    sizeOf v < sizeOf es
  | .nil, h => by simp [Entries.get] at h
  | .cons q w es, h => by
      simp only [Entries.get] at h
      split at h
      · injection h with h
        subst h
        simp only [Entries.cons.sizeOf_spec]; omega
      · have := get_lt h
        simp only [Entries.cons.sizeOf_spec]; omega

theorem jget_lt {k : List UInt8} {j v : Json D} (h : jget j k = some v) : sizeOf v < sizeOf j := by
  unfold jget at h
  split at h
  · have := get_lt h
    simp only [Json.obj.sizeOf_spec]; omega
  · exact absurd h (by simp)

/-- The assignments of `from_json`, parser_core.c:1107-1193, and the struct made of them; a
nested object that is missing leaves its variable without a value, which the initialiser then
reads. -/
def fromFields (F : Flt D) (P : List (Decl D)) (j : Json D) : List Field → Res (Vals D)
  | [] => .ok .nil
  | f :: fs => do
      let v ← (match jkind (cText f.ty) with
        | .int => do
            let i ← getInt F j (key f.name)
            Res.ok (Val.num (conv (cText f.ty) i))
        | .dbl => Res.ok (.dbl (getFloat F j (key f.name)))
        | .bool => Res.ok (.bool (getBool j (key f.name)))
        | .cstr => Res.ok (.cstr (some (getString j (key f.name))))
        | .string => Res.ok (.string (getString j (key f.name)))
        | .strs => Res.ok (.strs (getStrings j (key f.name)))
        | .nested =>
          match find P (cText f.ty) with
          | some d => match d.fromJson, d.body with
            | true, .strct gs =>
              match h : jget j (key f.name) with
              | none => Res.ub
              | some j' =>
                have := jget_lt h
                (fromFields F P j' gs).bind fun vs => .ok (.strct vs)
            | _, _ => Res.panic
          | none => Res.panic)
      let vs ← fromFields F P j fs
      pure (.cons v vs)
termination_by fs => (sizeOf j, fs.length)

/-- `T::to_json`. -/
def toJson (F : Flt D) (tb : Table D) (P : List (Decl D)) (n : Name) (v : Val D) : Res (Json D) :=
  match find P n, v with
  | some d, .strct vs => match d.toJson, d.body with
    | true, .strct fs => do pure (.obj (← toObj F tb P fs vs .nil))
    | _, _ => .panic
  | _, _ => .panic

/-- `T::from_json`: the `Result` is `Ok` whenever it returns. -/
def fromJson (F : Flt D) (P : List (Decl D)) (n : Name) (j : Json D) : Res (Val D) :=
  match find P n with
  | some d => match d.fromJson, d.body with
    | true, .strct fs => do pure (.strct (← fromFields F P j fs))
    | _, _ => .panic
  | none => .panic

/-- A format with the name of the field for `%` and the text of its type for `$`. -/
def fill (fmt : String) (n ft : Name) : Name :=
  fmt.toList.flatMap fun c => if c = '%' then n else if c = '$' then ft else [c]

/-- The assignment of a field in `from_json`, parser_core.c:1116-1189. -/
def assignFmt : JKind → String
  | .int => "let _f_% = (*j).get_int(\"%\").unwrap_or(0);\n"
  | .dbl => "let _f_% = (*j).get_float(\"%\").unwrap_or(0.0);\n"
  | .bool => "let _f_% = (*j).get_bool(\"%\").unwrap_or(false);\n"
  | .cstr => "let _f_% = (*j).get_string(\"%\").unwrap_or(\"\");\n"
  | .string => "let _f_% = String::new((*j).get_string(\"%\").unwrap_or(\"\"));\n"
  | .strs => "let _f_% = Vec<String>::new();\nlet _arr_% = (*j).get_array(\"%\");\n\
      if _arr_%.is_some() {\n  let _a_% = _arr_%.unwrap();\n\
      \x20 for let _i_%: usize = 0; _i_% < _a_%.len(); _i_% = _i_% + 1 {\n\
      \x20   let _item_% = _a_%.at(_i_%);\n    if _item_%.is_some() {\n\
      \x20     let _str_% = (*_item_%.unwrap()).as_string();\n      if _str_%.is_some() {\n\
      \x20       let _s_% = String::new(_str_%.unwrap());\n\
      \x20       _f_%.push(_s_%); _s_%.forget();\n      }\n    }\n  }\n}\n"
  | .nested => "let _opt_% = (*j).get(\"%\");\nlet _f_%: $;\n\
      if _opt_%.is_some() { _f_% = $::from_json(_opt_%.unwrap()).unwrap(); }\n"

/-- The call for a field in `to_json`, parser_core.c:1276-1311. -/
def setFmt : JKind → String
  | .int => "_obj.set(\"%\", JsonValue::number((double)self.%));\n"
  | .dbl => "_obj.set(\"%\", JsonValue::number(self.%));\n"
  | .bool => "_obj.set(\"%\", JsonValue::bool(self.%));\n"
  | .cstr => "_obj.set(\"%\", JsonValue::string(self.%));\n"
  | .string => "_obj.set(\"%\", JsonValue::string(self.%.c_str()));\n"
  | .strs => "let _arr_% = JsonValue::array();\n\
      for let _i_%: usize = 0; _i_% < self.%.length(); _i_% = _i_% + 1 {\n\
      \x20 _arr_%.push(JsonValue::string(self.%.get(_i_%).c_str()));\n}\n\
      _obj.set(\"%\", _arr_%);\n"
  | .nested => "_obj.set(\"%\", self.%.to_json());\n"

/-- The loop over the fields, parser_core.c:1099-1193 and 1262-1314: `sprintf` to a buffer of
2048 bytes, `strcat` to `body[8192]`. -/
def textLoop (fmt : JKind → String) : List Field → Name → Res Name
  | [], body => .ok body
  | f :: fs, body => do
      let a ← into 2048 (fill (fmt (jkind (cText f.ty))) f.name (cText f.ty))
      let body ← into 8192 (body ++ a)
      textLoop fmt fs body

/-- The text of one field in the initialiser, `char init[128]`, parser_core.c:1213-1232. -/
def initText (cloned : Bool) (n : Name) : Res Name :=
  into 128 (n ++ ": _f_".toList ++ n ++ if cloned then ".clone()".toList else [])

/-- The fields of the initialiser, parser_core.c:1205-1237; only the first 32 fields of kind
`strs` (`room` is what is left) are cloned. -/
def initLoop : Bool → Nat → List Field → Name → Res Name
  | _, _, [], body => .ok body
  | first, room, f :: fs, body => do
      let body ← sep first 8192 ", ".toList body
      let cloned := jkind (cText f.ty) = .strs ∧ 0 < room
      let i ← initText cloned f.name
      let body ← into 8192 (body ++ i)
      initLoop false (if cloned then room - 1 else room) fs body

/-- The text of the `impl` with `from_json`, parser_core.c:1083-1243. -/
def fromText (n : Name) (fs : List Field) : Res Name := do
  let body ← textLoop assignFmt fs []
  let body ← into 8192 (body ++ "return Result<".toList ++ n ++ ">::Ok(".toList ++ n ++
    " { ".toList)
  let body ← initLoop true 32 fs body
  let body ← into 8192 (body ++ " }); ".toList)
  into 9216 ("impl ".toList ++ n ++ " { fn from_json(j: JsonValue*) -> Result<".toList ++ n ++
    "> { ".toList ++ body ++ " } }".toList)

/-- The text of the `impl` with `to_json`, parser_core.c:1245-1320. -/
def toText (n : Name) (fs : List Field) : Res Name := do
  let body ← textLoop setFmt fs "let _obj = JsonValue::object();\n".toList
  let body ← into 8192 (body ++ "return _obj;".toList)
  into 9216 ("impl ".toList ++ n ++ " { fn to_json(self) -> JsonValue { ".toList ++ body ++
    " } }".toList)

/-! ## What a user expects -/

namespace Spec

/-- The declaration of a name. -/
def decl (P : List (Decl D)) (n : Name) : Option (Decl D) := P.find? (·.name = n)

/-- The type is a C string by its text. -/
def isText (t : Ty) : Prop := cText t = "char*".toList ∨ cText t = "const char*".toList

instance (t : Ty) : Decidable (isText t) := by unfold isText; infer_instance

mutual
/-- A value of a type. -/
def Typed (P : List (Decl D)) : Ty → Val D → Prop
  | .prim .void, _ => False
  | .prim .closure, _ => False
  | .prim .bool, .bool _ => True
  | .prim .bool, _ => False
  | .prim .f32, .dbl _ => True
  | .prim .f32, _ => False
  | .prim .f64, .dbl _ => True
  | .prim .f64, _ => False
  | .prim .string, .cstr _ => True
  | .prim .string, _ => False
  | .prim _, .num _ => True
  | .ptr t, .cstr _ => isText (.ptr t)
  | .ptr t, .addr _ => ¬ isText (.ptr t)
  | .name n, v =>
    match decl P n with
    | none => False
    | some d => match d.eq with
      | .custom _ => True
      | _ => match d.body, v with
        | .strct fs, .strct vs => TypedAll P (fs.map (·.ty)) vs
        | .enm pls, .enm i vs => i < pls.length ∧ TypedAll P (pls.getD i []) vs
        | _, _ => False
  | .arr t n, .arr vs => TypedAll P (List.replicate n t) vs
  | _, _ => False
/-- Values of the types. -/
def TypedAll (P : List (Decl D)) : List Ty → Vals D → Prop
  | [], .nil => True
  | t :: ts, .cons v vs => Typed P t v ∧ TypedAll P ts vs
  | _, _ => False
end

mutual
/-- No C string in the value is NULL. -/
def NoNull : Val D → Prop
  | .cstr s => s ≠ none
  | .strct vs => NoNulls vs
  | .enm _ vs => NoNulls vs
  | .arr vs => NoNulls vs
  | _ => True
/-- No C string in the values is NULL. -/
def NoNulls : Vals D → Prop
  | .nil => True
  | .cons v vs => NoNull v ∧ NoNulls vs
end

mutual
/-- Structural equality: numbers, characters and pointers by value, floating point numbers as the
machine does, C strings by their text, structs field by field, enums by variant and payload,
arrays element by element; a type with its own `eq` as that says. -/
def Same (F : Flt D) (P : List (Decl D)) : Ty → Val D → Val D → Prop
  | .name n, a, b =>
    match decl P n with
    | none => False
    | some d => match d.eq with
      | .custom f => f a b = .ok true
      | _ => match d.body, a, b with
        | .strct fs, .strct vs, .strct ws => SameAll F P (fs.map (·.ty)) vs ws
        | .enm pls, .enm i vs, .enm j ws => i = j ∧ SameAll F P (pls.getD i []) vs ws
        | _, _, _ => False
  | .arr t n, .arr vs, .arr ws => SameAll F P (List.replicate n t) vs ws
  | _, .num a, .num b => a = b
  | _, .bool a, .bool b => a = b
  | _, .dbl a, .dbl b => F.eq a b = true
  | _, .addr a, .addr b => a = b
  | _, .cstr a, .cstr b => a = b
  | _, _, _ => False
/-- All of them. -/
def SameAll (F : Flt D) (P : List (Decl D)) : List Ty → Vals D → Vals D → Prop
  | [], .nil, .nil => True
  | t :: ts, .cons v vs, .cons w ws => Same F P t v w ∧ SameAll F P ts vs ws
  | _, _, _ => False
end

/-- Field types the derived comparison is right for: scalars, pointers, C strings, structs that
can be compared, and enums without payloads that derive `Eq` or were declared before (and do
not come with an `eq` of their own). -/
def Comparable (P before : List (Decl D)) : Ty → Prop
  | .prim p => p ≠ .void ∧ p ≠ .closure
  | .ptr _ => True
  | .name n => ∃ d, decl P n = some d ∧
      match d.body, d.eq with
      | .strct _, .derived => True
      | .strct _, .custom _ => True
      | .enm pls, .derived => ∀ ts ∈ pls, ts = []
      | .enm pls, .none => (∀ ts ∈ pls, ts = []) ∧ (decl before n).isSome
      | _, _ => False
  | _ => False

/-- A program for which the claim about `Eq` is made: names are identifiers other than the basic
types, an `eq` written by hand returns, derived ones have comparable fields or no payloads. -/
structure Good (P : List (Decl D)) : Prop where
  ident : ∀ d ∈ P, d.name.all Generics.isIdent = true
  basic : ∀ d ∈ P, isBasic d.name = false
  prim : ∀ d ∈ P, ∀ p : DeclOrder.Prim, d.name ≠ p.cText.toList
  total : ∀ d ∈ P, ∀ f, d.eq = .custom f → ∀ a b, ∃ r, f a b = .ok r
  fields : ∀ before d rest fs, P = before ++ d :: rest → d.eq = .derived → d.body = .strct fs →
    ∀ f ∈ fs, Comparable P before f.ty
  enums : ∀ d ∈ P, ∀ pls, d.eq = .derived → d.body = .enm pls → ∀ ts ∈ pls, ts = []

/-- No NaN in the value: every floating point number in it equals itself. -/
def SelfEq (F : Flt D) : Val D → Prop
  | .dbl d => F.eq d d = true
  | .strct vs => SelfEqs vs
  | .enm _ vs => SelfEqs vs
  | .arr vs => SelfEqs vs
  | _ => True
where
  /-- in none of the values -/
  SelfEqs : Vals D → Prop
    | .nil => True
    | .cons v vs => SelfEq F v ∧ SelfEqs vs

/-- The length of a comparison. -/
def cmpLen (before : List (Decl D)) (f : Field) : Nat :=
  match cmpOf before f.ty with
  | .tags => 23 + 2 * f.name.length
  | .call ft => 21 + ft.length + 2 * f.name.length
  | .plain => 15 + 2 * f.name.length

/-- The length of the body of `eq` for a struct. -/
def bodyLen (before : List (Decl D)) (fs : List Field) : Nat :=
  8 + if fs = [] then 4 else (fs.map (cmpLen before)).sum + 4 * (fs.length - 1)

mutual
/-- A value of a type that survives the way through JSON: integers that fit an `int` (and are not
negative in unsigned fields), `double`s, booleans, C strings that are not NULL, `String`s without
NUL bytes, vectors of them, and structs of these that derive both methods. -/
def JTyped (P : List (Decl D)) : Ty → Val D → Prop
  | .prim .int, .num i => -2 ^ 31 ≤ i ∧ i < 2 ^ 31
  | .prim .i32, .num i => -2 ^ 31 ≤ i ∧ i < 2 ^ 31
  | .prim .cint, .num i => -2 ^ 31 ≤ i ∧ i < 2 ^ 31
  | .prim .i64, .num i => -2 ^ 31 ≤ i ∧ i < 2 ^ 31
  | .prim .u32, .num i => 0 ≤ i ∧ i < 2 ^ 31
  | .prim .u64, .num i => 0 ≤ i ∧ i < 2 ^ 31
  | .prim .usize, .num i => 0 ≤ i ∧ i < 2 ^ 31
  | .prim .f64, .dbl _ => True
  | .prim .bool, .bool _ => True
  | .ptr (.prim .char), .cstr s => s ≠ none
  | .name n, .string s => n = "String".toList ∧ 0 ∉ s
  | .app g t, .strs l => g = "Vec".toList ∧ t = .name "String".toList ∧ ∀ s ∈ l, 0 ∉ s
  | .name n, .strct vs => ∃ d fs, decl P n = some d ∧ d.toJson = true ∧ d.fromJson = true ∧
      d.body = .strct fs ∧ JTypedAll P (fs.map (·.ty)) vs
  | _, _ => False
/-- All of them. -/
def JTypedAll (P : List (Decl D)) : List Ty → Vals D → Prop
  | [], .nil => True
  | t :: ts, .cons v vs => JTyped P t v ∧ JTypedAll P ts vs
  | _, _ => False
end

/-- A program for which the claim about JSON is made: structs that derive `ToJson` have names that
are not taken for other types, fields with different names, and methods whose text fits the
buffers it is written to. -/
structure JGood (P : List (Decl D)) : Prop where
  name : ∀ d ∈ P, d.toJson = true → d.name ∉ intTexts ∧ d.name ≠ "double".toList ∧
    d.name ≠ "bool".toList ∧ d.name ≠ "String".toList ∧ '*' ∉ d.name
  vec : ∀ d ∈ P, d.toJson = true → ¬ ("Vec".toList <:+: d.name ∧ "String".toList <:+: d.name)
  fields : ∀ d ∈ P, d.toJson = true → ∀ fs, d.body = .strct fs →
    (fs.map (·.name)).Nodup ∧ ∀ f ∈ fs, f.name.all Generics.isIdent = true
  fits : ∀ d ∈ P, d.toJson = true → ∀ fs, d.body = .strct fs →
    (∃ t, fromText d.name fs = .ok t) ∧ ∃ t, toText d.name fs = .ok t

/-- The value can also be written as text and read back (see C17): numbers that `%.15g` keeps,
strings without backspace or form feed and shorter than 4096 bytes. -/
def Writable (io : Json.NumIO D) (F : Flt D) : Val D → Prop
  | .num i => Json.Spec.Readable io (F.ofInt i)
  | .dbl d => Json.Spec.Readable io d
  | .cstr s => ∀ t, s = some t → Json.Spec.PlainText t
  | .string s => Json.Spec.PlainText s
  | .strs l => ∀ s ∈ l, Json.Spec.PlainText s
  | .strct vs => Writables vs
  | _ => True
where
  /-- all of them -/
  Writables : Vals D → Prop
    | .nil => True
    | .cons v vs => Writable io F v ∧ Writables vs

end Spec

end Verif.Derive
