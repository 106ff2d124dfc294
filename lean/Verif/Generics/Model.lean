import Verif.DeclOrder.Model

/-!
# Instances of generic types

Models, from `/repo/src/parser/parser_utils.c`, `replace_type_str`, `sanitize_mangled_name`,
`copy_fields_replacing`, `instantiate_generic` and `instantiate_generic_multi`; from
`/repo/src/parser/parser_type.c` the names given to instances; and from `/repo/src/ast/ast.c`
the texts `type_to_c_string` and `type_to_string` give to the types of fields.

Simplified: texts are lists of characters; the 1024 byte buffers of `replace_type_str` are left
out (the suffix of the arguments has passed the 256 byte buffer of `instantiate_generic`
before); `instantiateAll` takes the request a copied field makes (`nested`) as one of its list.
-/

namespace Verif.Generics

open DeclOrder (Prim dim)

/-- The characters of a C string, without the final 0. -/
abbrev Name := List Char

/-- A type as written in a template: `Type` of /repo/src/ast/ast.h:78-110.  `name` is a struct,
enum or alias, `par` a parameter of the template, `app`/`app2` a generic with one or two
arguments (parser_type.c:556-690). -/
inductive Ty where
  | prim (p : Prim)
  | name (n : Name)
  | par (n : Name)
  | ptr (t : Ty)
  | arr (t : Ty) (size : Nat)
  | slice (t : Ty)
  | app (g : Name) (t : Ty)
  | app2 (g : Name) (t u : Ty)
  | const (t : Ty)
  | rawFn (ret arg : Ty)
  deriving DecidableEq, Repr

/-- Letters and digits of C identifiers: `is_ident_char`, parser_utils.c:1209-1212. -/
def isIdent (c : Char) : Bool :=
  ('a' ≤ c && c ≤ 'z') || ('A' ≤ c && c ≤ 'Z') || ('0' ≤ c && c ≤ '9') || c = '_'

/-- One character of `sanitize_mangled_name`, parser_utils.c:2226-2248. -/
def sanitizeChar (c : Char) : Name :=
  if c = '*' then ['P', 't', 'r']
  else if c = '<' ∨ c = ',' ∨ c = ' ' then ['_']
  else if c = '>' ∨ c = '&' then []
  else if isIdent c then [c]
  else ['_']

/-- `"struct "` -/
def structKw : Name := ['s', 't', 'r', 'u', 'c', 't', ' ']

/-- `sanitize_mangled_name`, parser_utils.c:2214-2253. -/
def sanitize (s : Name) : Name :=
  (if structKw.isPrefixOf s then s.drop 7 else s).flatMap sanitizeChar

/-- `"Slice_"` -/
def sliceKw : Name := ['S', 'l', 'i', 'c', 'e', '_']

/-- `type_to_c_string` (`c`, /repo/src/ast/ast.c:482-755) and `type_to_string` (/repo/src/ast/ast.c:224-476);
`d` are the sizes of the arrays around.  An instance is named by its template and the sanitized
`type_to_string` of its arguments, parser_type.c:619-638 and 673-680. -/
def txt : Bool → Ty → Name → Name
  | c, .prim p, d => (if c then p.cText else p.zText).toList ++ d
  | _, .name n, d => n ++ d
  | _, .par n, d => n ++ d
  | c, .ptr t, d => txt c t [] ++ '*' :: d
  | c, .arr t n, d => txt c t (d ++ dim n)
  | _, .slice t, d => sliceKw ++ txt false t [] ++ d
  | _, .app g t, d => g ++ '_' :: sanitize (txt false t []) ++ d
  | _, .app2 g t u, d =>
      g ++ '_' :: sanitize (txt false t []) ++ '_' :: sanitize (txt false u []) ++ d
  | c, .const t, d => "const ".toList ++ txt c t [] ++ d
  | true, .rawFn r a, d => txt true r [] ++ " (*)(".toList ++ txt true a [] ++ ')' :: d
  | false, .rawFn r a, d =>
      "fn*(".toList ++ txt false a [] ++ ") -> ".toList ++ txt false r [] ++ d

/-- `type_to_c_string`: the text of a field (parser_struct.c:975). -/
def cText (t : Ty) : Name := txt true t []

/-- `type_to_string`: the text of a type argument (parser_type.c:564, 655). -/
def zText (t : Ty) : Name := txt false t []

/-- The parts between commas, as `strchr(p_ptr, ',')` finds them, parser_utils.c:1385-1420. -/
def parts : Name → List Name
  | [] => [[]]
  | c :: r =>
    if c = ',' then [] :: parts r
    else match parts r with
      | [] => [[c]]
      | w :: ws => (c :: w) :: ws

/-- The loop over several parameters, parser_utils.c:1381-1421: the argument of the first
parameter that is the whole text. -/
def pick (src : Name) : List Name → List Name → Option Name
  | p :: ps, c :: cs => if src = p then some c else pick src ps cs
  | _, _ => none

/-- `"_F_S"` from `"F,S"`, parser_utils.c:1487-1501 (`strtok` skips empty parts). -/
def suffixOf (ws : List Name) : Name :=
  (ws.filter (· ≠ [])).flatMap fun w => '_' :: w

/-- The search for the opening bracket from the end, parser_utils.c:1426-1446: characters of the
last group.  `depth` is positive when `[` is met, as the text ends with `]`. -/
def openIdx : Name → Nat → Option Nat
  | [], _ => none
  | x :: r, depth =>
    if x = ']' then (openIdx r (depth + 1)).map (· + 1)
    else if x = '[' then
      if depth - 1 = 0 then some 1 else (openIdx r (depth - 1)).map (· + 1)
    else (openIdx r depth).map (· + 1)

/-- `bracket_idx > 0`, parser_utils.c:1423-1448. -/
def bracket (src : Name) : Option Nat :=
  if src.getLast? = some ']' then
    match openIdx src.reverse 0 with
    | some k => if 0 < src.length - k then some (src.length - k) else none
    | none => none
  else none

theorem openIdx_pos {r : Name} {d k : Nat} (h : openIdx r d = some k) : 0 < k := by
  cases r with
  | nil => simp [openIdx] at h
  | cons x r =>
    simp only [openIdx] at h
    repeat' split at h
    all_goals first
      | (injection h; omega)
      | (simp only [Option.map_eq_some_iff] at h; obtain ⟨a, _, rfl⟩ := h; omega)

theorem bracket_lt {src : Name} {i : Nat} (h : bracket src = some i) : i < src.length := by
  unfold bracket at h
  split at h
  · split at h
    · next k hk =>
      have := openIdx_pos hk
      split at h
      · injection h; omega
      · exact absurd h (by simp)
    · exact absurd h (by simp)
  · exact absurd h (by simp)

/-- The names of the template and of the instance around, parser_utils.c:1477-1495: `Vec` and
`Vec_T` in methods of `Vec<T>`. -/
def whole (p : Name) (st : Option (Name × Name)) (src : Name) : Option Name :=
  match st with
  | none => none
  | some (os, ns) => if src = os ∨ src = os ++ '_' :: p then some ns else none

/-- The suffix rule, parser_utils.c:1497-1546. -/
def suffixRule (p c src : Name) : Option Name :=
  let ps := suffixOf (parts p)
  if ps.isSuffixOf src then
    some (src.take (src.length - ps.length) ++
      suffixOf' (parts c))
  else none
where
  /-- `"_int_float"` from `"int,float"`, sanitized, parser_utils.c:1521-1536. -/
  suffixOf' (ws : List Name) : Name :=
    (ws.filter (· ≠ [])).flatMap fun w => '_' :: sanitize w

/-- `replace_type_str`, parser_utils.c:1367-1572.  `p` and `c` are the parameters and arguments,
separated by commas; `st` the struct around, if any.  (`free` does nothing in this program,
/repo/src/zprep.h:17, so that the comparisons with `base` after `free(base)` are as written.) -/
def replaceTypeStr (p c : Name) (st : Option (Name × Name)) (src : Name) : Name :=
  match (if ',' ∈ p then pick src (parts p) (parts c) else none) with
  | some r => r
  | none =>
    match (match h : bracket src with
        | some i =>
          have := bracket_lt h
          let nb := replaceTypeStr p c st (src.take i)
          if nb ≠ src.take i then some (nb ++ src.drop i) else none
        | none => none) with
    | some r => r
    | none =>
      if src = p then c
      else match whole p st src with
        | some r => r
        | none =>
          match suffixRule p c src with
          | some r => r
          | none =>
            match (if _h : 1 < src.length ∧ src.getLast? = some '*' then
                let nb := replaceTypeStr p c st src.dropLast
                if nb ≠ src.dropLast then some (nb ++ ['*']) else none
              else none) with
            | some r => r
            | none =>
              match (if _h : sliceKw.isPrefixOf src = true then
                  let nb := replaceTypeStr p c st (src.drop 6)
                  if nb ≠ src.drop 6 then some (sliceKw ++ nb) else none
                else none) with
              | some r => r
              | none => src
termination_by src.length
decreasing_by
  · simp only [List.length_take]; omega
  · simp only [List.length_dropLast]; omega
  · have := List.IsPrefix.length_le (List.isPrefixOf_iff_prefix.1 _h)
    simp only [List.length_drop]
    simp [sliceKw] at this
    omega

/-- A field of a struct: name, text of its type, bit width (0: none), /repo/src/ast/ast.h:470-476. -/
structure Field where
  name : Name
  type : Name
  bits : Nat
  deriving DecidableEq, Repr

/-- `copy_fields_replacing`, parser_utils.c:2880-2894 and 2978: a new node, all zero, gets the
name and the type. -/
def copyFields (p c : Name) (fs : List Field) : List Field :=
  fs.map fun f => { name := f.name, type := replaceTypeStr p c none f.type, bits := 0 }

/-- The fields of an instance: one parameter (parser_utils.c:3157-3161) or one after the other
(parser_utils.c:3336-3350). -/
def instanceFields (fs : List Field) : List (Name × Name) → List Field
  | [] => fs
  | (p, c) :: ps => instanceFields (copyFields p c fs) ps

/-- `m`, parser_utils.c:3108-3110, 3278-3286, before it is put into its 256 bytes. -/
def mangled (tpl : Name) (args : List Name) : Name :=
  tpl ++ args.flatMap fun a => '_' :: sanitize a

/-- An entry of `ctx->instantiations`, with the fields of its struct. -/
structure Instance where
  name : Name
  tpl : Name
  args : List Name
  deriving DecidableEq, Repr

/-- `strlen(arg) == 1 && isupper(arg[0])`, parser_utils.c:3100-3107. -/
def placeholder (arg : Name) : Bool :=
  match arg with
  | [c] => 'A' ≤ c && c ≤ 'Z'
  | _ => false

/-- `instantiate_generic` (one argument) and `instantiate_generic_multi`,
parser_utils.c:3095-3144, 3272-3321: `sprintf` into 256 bytes, then an entry unless the name is
there.  Simplified: the template exists. -/
def instantiate (tbl : List Instance) (tpl : Name) (args : List Name) : Res (List Instance) :=
  match args with
  | [a] => if placeholder a then .ok tbl else go
  | _ => go
where
  /-- after the check for placeholders -/
  go : Res (List Instance) :=
    let m := mangled tpl args
    if 256 ≤ m.length then .ub -- writes past the end of m
    else if tbl.any (·.name = m) then .ok tbl
    else .ok ({ name := m, tpl := tpl, args := args } :: tbl)

/-- Text before and after the last `_`: `strrchr(s, '_')`. -/
def cutLast (s : Name) : Option (Name × Name) :=
  if '_' ∈ s then
    let a := (s.reverse.takeWhile (· ≠ '_')).reverse
    some (s.take (s.length - a.length - 1), a)
  else none

/-- The instance a copied field asks for, parser_utils.c:2895-2940: the text up to the first `*`
is cut at its last `_`, and what is in front must be a template.  Simplified: the second search,
for pointers only (2943-2972), is left out; the test that the last `_` of the whole text is not
its first character is left out (no type text begins with its only `_`). -/
def nested (tpls : List Name) (ty : Name) : Option (Name × Name) :=
  match cutLast (ty.takeWhile (· ≠ '*')) with
  | some (t, a) => if t ∈ tpls then some (t, a) else none
  | none => none

/-- The requests of a program, one after the other. -/
def instantiateAll (tbl : List Instance) : List (Name × List Name) → Res (List Instance)
  | [] => .ok tbl
  | (t, a) :: rs => do
    let tbl ← instantiate tbl t a
    instantiateAll tbl rs

namespace Spec

/-- Put type arguments in for the parameters of a template: `σ` gives the argument of a
parameter. -/
def subst (σ : Name → Option Ty) : Ty → Ty
  | .prim p => .prim p
  | .name n => .name n
  | .par n => (σ n).getD (.par n)
  | .ptr t => .ptr (subst σ t)
  | .arr t n => .arr (subst σ t) n
  | .slice t => .slice (subst σ t)
  | .app g t => .app g (subst σ t)
  | .app2 g t u => .app2 g (subst σ t) (subst σ u)
  | .const t => .const (subst σ t)
  | .rawFn r a => .rawFn (subst σ r) (subst σ a)

/-- one parameter -/
def one (p : Name) (a : Ty) : Name → Option Ty := fun n => if n = p then some a else none

/-- two parameters -/
def two (p : Name) (a : Ty) (q : Name) (b : Ty) : Name → Option Ty :=
  fun n => if n = p then some a else if n = q then some b else none

/-- Inside the methods of a generic struct `os`, its bare name is the instance `ns`. -/
def self (os ns : Name) : Ty → Ty
  | .prim p => .prim p
  | .name n => if n = os then .name ns else .name n
  | .par n => .par n
  | .ptr t => .ptr (self os ns t)
  | .arr t n => .arr (self os ns t) n
  | .slice t => .slice (self os ns t)
  | .app g t => .app g (self os ns t)
  | .app2 g t u => .app2 g (self os ns t) (self os ns u)
  | .const t => .const (self os ns t)
  | .rawFn r a => .rawFn (self os ns r) (self os ns a)

/-- What follows the last `_` of a text. -/
def lastSeg (s : Name) : Name := (s.reverse.takeWhile (· ≠ '_')).reverse

/-- A parameter name the substitution can tell from other names: an identifier without `_` that
does not end with `Ptr`. -/
structure Param (p : Name) : Prop where
  ne : p ≠ []
  ident : ∀ c ∈ p, isIdent c = true ∧ c ≠ '_'
  ptr : ¬ ['P', 't', 'r'] <:+ p

/-- The name of a generic struct: an identifier without `_`, not `Slice`. -/
structure Tpl (g : Name) : Prop where
  ne : g ≠ []
  ident : ∀ c ∈ g, isIdent c = true ∧ c ≠ '_'
  slice : g ≠ ['S', 'l', 'i', 'c', 'e']

/-- A type without the parameter `p` and the bare name `os` in which no name ends with `_p`. -/
inductive Clean (p : Name) (os : Option Name) : Ty → Prop
  | prim (k : Prim) (hc : lastSeg k.cText.toList ≠ p) (hz : lastSeg k.zText.toList ≠ p)
      (hm : lastSeg (sanitize k.zText.toList) ≠ p)
      (oc : os ≠ some k.cText.toList) (oz : os ≠ some k.zText.toList) : Clean p os (.prim k)
  | name (n : Name) (hn : n ≠ []) (hi : ∀ c ∈ n, isIdent c = true) (hl : lastSeg n ≠ p)
      (hs : ¬ sliceKw <+: n) (ho : os ≠ some n) : Clean p os (.name n)
  | par (n : Name) (hp : Param n) (hl : n ≠ p) (ho : os ≠ some n) : Clean p os (.par n)
  | ptr {t : Ty} : Clean p os t → Clean p os (.ptr t)
  | arr {t : Ty} (n : Nat) : Clean p os t → Clean p os (.arr t n)
  | slice {t : Ty} : Clean p os t → Clean p os (.slice t)
  | app {t : Ty} (g : Name) : Tpl g → Clean p os t → Clean p os (.app g t)
  | app2 {t u : Ty} (g : Name) : Tpl g → Clean p os t → Clean p os u → Clean p os (.app2 g t u)
  | const {t : Ty} : Clean p os t → Clean p os (.const t)

/-- A type whose last name is the parameter `p`, which occurs nowhere else in it: `T`, `Vec<T>`,
`Vec<Box<T>>`, `Map<int, T>`. -/
inductive Tail (p : Name) (os : Option Name) : Ty → Prop
  | par : Tail p os (.par p)
  | slice {t : Ty} : Tail p os t → Tail p os (.slice t)
  | app {t : Ty} (g : Name) : Tpl g → Tail p os t → Tail p os (.app g t)
  | app2 {t u : Ty} (g : Name) : Tpl g → Clean p os t → Tail p os u → Tail p os (.app2 g t u)

/-- The types substitution gets right. -/
inductive Fits (p : Name) (os : Option Name) (a : Ty) : Ty → Prop
  | clean {t : Ty} : Clean p os t → Fits p os a t
  | par : Fits p os a (.par p)
  | self (n : Name) : os = some n → Fits p os a (.name n)
  | ptr {t : Ty} : Fits p os a t → Fits p os a (.ptr t)
  | arr {t : Ty} (n : Nat) : Fits p os a t → Fits p os a (.arr t n)
  | app {t : Ty} (g : Name) : Tpl g → Tail p os t → Fits p os a (.app g t)
  | app2 {t u : Ty} (g : Name) : Tpl g → Clean p os t → Tail p os u → Fits p os a (.app2 g t u)
  | slice {t : Ty} : Tail p os t → (∀ c ∈ zText a, isIdent c = true) → Fits p os a (.slice t)

/-- A type argument that is not an array, does not mention the parameter, and has a text without
the commas that separate arguments. -/
structure Actual (p : Name) (a : Ty) : Prop where
  flat : ∀ t n, a ≠ .arr t n
  ne : zText a ≠ p
  sne : sanitize (zText a) ≠ p
  comma : ',' ∉ zText a
  nonempty : zText a ≠ []
  kw : ¬ structKw <+: zText a

/-- A type argument that is moreover spelled in the program as in C (not `c_long`).  (`int` is
`int32_t` in a field and `int` in a type argument; as an argument it is the name `int`, the type
of C, here.) -/
structure Arg (p : Name) (a : Ty) : Prop extends Actual p a where
  same : cText a = zText a

end Spec

end Verif.Generics
