import Verif.Basic

/-!
# Imports

Models how files import each other and what names mean in them: `parse_import`
(/repo/src/parser/parser_stmt.c:3511-3891), the tables of files, modules and imported names
(/repo/src/parser/parser_utils.c:1128-1205 and 3369-3389), the names that functions, structs and methods get
(/repo/src/parser/parser_decl.c:131-139, /repo/src/parser/parser_struct.c:545-556, 705-714 and 1016-1026) and the names
that references become (/repo/src/parser/parser_expr.c:2000-2295 and 2599-2614,
/repo/src/parser/parser_type.c:61-104 and 522-547). The C compiler then joins references and definitions by name.

Simplified: of the declarations only functions, structs and methods of `impl S { … }`, without generics (enums and unions
are named as structs are); of a body only the names in it; paths in import statements are those `realpath` gives (see
`locate` for the search); no `@cfg`; no extra files on the command line; the buffer of 256 bytes for the name of
an imported type (parser_expr.c:2022) is large enough.
-/

namespace Verif.Modules

/-- Names. -/
abbrev Name := String
/-- Canonical paths of files. -/
abbrev Path := String

/-- Names in a body, as written. -/
inductive Ref where
  /-- `f(…)` -/
  | call (f : Name)
  /-- `a::b(…)`, a function of a module or of a type -/
  | path (a b : Name)
  /-- `a::b::c(…)` -/
  | path3 (a b c : Name)
  /-- the type `a`, also in `a { … }` -/
  | ty (a : Name)
  /-- the type `a::b` -/
  | qty (a b : Name)
  deriving DecidableEq

/-- Kinds of import statements. -/
inductive Import where
  /-- `import "file"` -/
  | plain
  /-- `import "file" as m` -/
  | named (m : Name)
  /-- `import { a, b as c } from "file"` -/
  | sel (names : List (Name × Option Name))
  deriving DecidableEq

/-- What stands in a file. -/
inductive Item where
  | imp (k : Import) (q : Path)
  | fn (f : Name) (body : List Ref)
  | struct (t : Name) (fields : List Ref)
  /-- `impl t { fn f … }` -/
  | method (t f : Name) (body : List Ref)
  deriving DecidableEq

/-- A file. -/
abbrev File := List Item

/-! ## Names of modules -/

/-- What is behind the last separator (parser_utils.c:1183-1190). -/
def fileName (cs : List Char) : List Char := (cs.reverse.takeWhile fun c => c != '/' && c != '\\').reverse

/-- Without the last extension (parser_utils.c:1191-1192). -/
def stem (cs : List Char) : List Char :=
  if cs.contains '.' then ((cs.reverse.dropWhile (· != '.')).drop 1).reverse else cs

/-- `extract_module_name` (parser_utils.c:1181-1207): letters and digits stay, the rest becomes `_`. -/
def base (p : Path) : Name :=
  String.ofList ((stem (fileName p.toList)).map fun c => if c.isAlphanum then c else '_')

/-- C headers are included, not read (parser_stmt.c:3786-3811). -/
def header (p : Path) : Bool := 2 < p.length && p.toList.drop (p.length - 2) == ['.', 'h']

/-! ## Tables -/

/-- A module with its alias (parser_stmt.c:3793-3800). -/
structure Mod where
  alias : Name
  file : Path
  deriving DecidableEq

/-- A name imported on its own (parser_utils.c:1152-1161). -/
structure Sel where
  /-- the name it has here: the alias, or else the symbol (parser_utils.c:1168-1175) -/
  here : Name
  sym : Name
  file : Path
  deriving DecidableEq

/-- What is written to the C file: the definition at item `i` of a file, a reference at item `i`, an `#include`. -/
inductive Ev where
  | dfn (c : Name) (p : Path) (i : Nat)
  | use (p : Path) (i : Nat) (r : Ref) (c : Name)
  | incl (p : Path)
  deriving DecidableEq

/-- The state of the parser. -/
structure St where
  imported : List Path
  mods : List Mod
  sels : List Sel
  structs : List Name
  evs : List Ev
  deriving DecidableEq

/-- The state at the start: the file on the command line is not marked as imported (main.c:441, only with extra
files: main.c:449-457). -/
def St.init : St := ⟨[], [], [], [], []⟩

/-- `find_module` (parser_utils.c:1128-1140). -/
def findMod (s : St) (a : Name) : Option Mod := s.mods.find? (·.alias = a)

/-- `find_selective_import` (parser_utils.c:1163-1179). -/
def findSel (s : St) (a : Name) : Option Sel := s.sels.find? (·.here = a)

/-! ## Names in C -/

/-- A declared name, with the prefix of the module if there is one (parser_decl.c:131-139, parser_struct.c:549-555 and
1020-1026). -/
def own (pre : Option Name) (n : Name) : Name :=
  match pre with
  | some b => b ++ "_" ++ n
  | none => n

/-- One `::` in an expression (parser_expr.c:2007-2289). -/
def seg (pre : Option Name) (s : St) (acc b : Name) : Name :=
  match if pre.isNone then findSel s acc else none with
  | some e =>
    let t := base e.file ++ "_" ++ e.sym
    if t ∈ s.structs then t ++ "__" ++ b else t ++ "_" ++ b
  | none =>
    match findMod s acc with
    | some m => if header m.file then b else base m.file ++ "_" ++ b
    | none => if acc ∈ s.structs then acc ++ "__" ++ b else acc ++ "_" ++ b

/-- The name of a type (parser_type.c:522-547, and the same for `T { … }`, parser_expr.c:2599-2614). -/
def tyName (pre : Option Name) (s : St) (a : Name) : Name :=
  match pre with
  | some b => b ++ "_" ++ a
  | none =>
    match findSel s a with
    | some e => base e.file ++ "_" ++ e.sym
    | none => a

/-- `a::b` in a type (parser_type.c:61-104). -/
def qualified (s : St) (a b : Name) : Name :=
  match findMod s a with
  | some m => if header m.file then b else base m.file ++ "_" ++ b
  | none => a ++ "_" ++ b

/-- The C name a reference becomes. The name of a function that is called is not changed (parser_expr.c:2956-3285,
/repo/src/codegen/codegen.c:778). -/
def cname (pre : Option Name) (s : St) : Ref → Name
  | .call f => f
  | .path a b => seg pre s a b
  | .path3 a b c => seg pre s (seg pre s a b) c
  | .ty a => tyName pre s a
  | .qty a b => tyName pre s (qualified s a b)

/-! ## Parsing -/

/-- How parsing ends: `out` if the given depth of imports was not enough, `missing` for "Not found" (parser_stmt.c:3830),
`over` if the tables for 32 names overflow (parser_stmt.c:3578-3620). -/
inductive R where
  | ok (s : St)
  | missing
  | over
  | out
  deriving DecidableEq

/-- The references of a body. -/
def uses (pre : Option Name) (p : Path) (i : Nat) (s : St) (rs : List Ref) : List Ev :=
  rs.map fun r => .use p i r (cname pre s r)

/-- The tables overflow (parser_stmt.c:3578-3580). -/
def tooMany : Import → Bool
  | .sel ns => 32 < ns.length
  | _ => false

/-- Names are registered before the file is read (parser_stmt.c:3752-3801). -/
def register (k : Import) (q : Path) (s : St) : St :=
  match k with
  | .plain => { s with imported := q :: s.imported }
  | .named m => { s with imported := q :: s.imported, mods := ⟨m, q⟩ :: s.mods }
  | .sel ns =>
    { s with imported := q :: s.imported, sels := (ns.map fun n => ⟨n.2.getD n.1, n.1, q⟩).reverse ++ s.sels }

/-- The prefix for the imported file (parser_stmt.c:3835-3848): that of the importing file goes on if the import is plain. -/
def prefixOf (k : Import) (pre : Option Name) (q : Path) : Option Name :=
  match k with
  | .plain => pre
  | _ => some (base q)

/-- One item of file `p`, at place `i`; `rec` reads imported files. A file imported before is skipped with its names
(parser_stmt.c:3747-3751; what follows, as `as m`, is skipped by parser_core.c:813). -/
def item (fs : Path → Option File) (rec : Option Name → Path → File → St → R) (pre : Option Name) (p : Path) (i : Nat)
    (it : Item) (s : St) : R :=
  match it with
  | .imp k q =>
    if tooMany k then .over
    else if q ∈ s.imported then .ok s
    else if header q then .ok { register k q s with evs := s.evs ++ [.incl q] }
    else
      match fs q with
      | none => .missing
      | some f => rec (prefixOf k pre q) q f (register k q s)
  | .fn f body => .ok { s with evs := s.evs ++ .dfn (own pre f) p i :: uses pre p i s body }
  | .struct t fields =>
    .ok { s with structs := own pre t :: s.structs, evs := s.evs ++ (uses pre p i s fields ++ [.dfn (own pre t) p i]) }
  | .method t f body => .ok { s with evs := s.evs ++ .dfn (own pre t ++ "__" ++ f) p i :: uses pre p i s body }

/-- The items of a file from place `i` on (`parse_program_nodes`, parser_core.c:570-930). -/
def run (fs : Path → Option File) (rec : Option Name → Path → File → St → R) (pre : Option Name) (p : Path) :
    Nat → List Item → St → R
  | _, [], s => .ok s
  | i, it :: is, s =>
    match item fs rec pre p i it s with
    | .ok s => run fs rec pre p (i + 1) is s
    | .missing => .missing
    | .over => .over
    | .out => .out

/-- A file, with imports nested at most `n` deep. -/
def parse (fs : Path → Option File) : Nat → Option Name → Path → File → St → R
  | 0, _, _, _, _ => .out
  | n + 1, pre, p, f, s => run fs (parse fs n) pre p 0 f s

/-- A program (main.c:392-441). -/
def program (fs : Path → Option File) (n : Nat) (main : Path) : R :=
  match fs main with
  | none => .missing
  | some f => parse fs n none main f .init

/-! ## Where files are searched -/

/-- `z_path_last_sep`: the directory of a file, if its name has one. -/
def dirOf (p : Path) : Option Path :=
  if p.toList.contains '/' then
    some (String.ofList ((p.toList.reverse.dropWhile (· != '/')).drop 1).reverse)
  else none

/-- `./…` or `../…` (parser_stmt.c:3661). -/
def relative (fn : Path) : Bool :=
  match fn.toList with
  | '.' :: '/' :: _ => true
  | '.' :: '.' :: '/' :: _ => true
  | _ => false

/-- `d/f` if it has room in 1024 bytes. -/
def join (d f : Path) : Path := d ++ "/" ++ f

/-- The first directory with a readable file of that name (parser_stmt.c:3695-3711 and 3720-3737). -/
def search (readable : Path → Bool) (fn : Path) : List Path → Option Path
  | [] => none
  | d :: ds =>
    if (join d fn).length < 1024 ∧ readable (join d fn) then some (join d fn) else search readable fn ds

/-- The path that is opened (parser_stmt.c:3656-3739): `cur` is the importing file, `incs` are the include paths, `roots` are
`ZC_ROOT` and the two installed directories. Simplified: names relative to the current file are short enough for
1024 bytes. -/
def locate (readable : Path → Bool) (cur : Path) (incs roots : List Path) (fn : Path) : Path :=
  let fn :=
    if fn.toList.head? = some '/' then fn
    else
      match dirOf cur with
      | some d => if relative fn || readable (join d fn) then join d fn else fn
      | none => fn
  if readable fn then fn
  else (search readable fn (incs ++ roots)).getD fn

/-! ## Specification -/

namespace Spec

/-- The files that belong to a program: the main file and those imported by files that belong to it. -/
inductive Part (fs : Path → Option File) (main : Path) : Path → Prop where
  | main : Part fs main main
  | imp {p q : Path} {f : File} {k : Import} (h : Part fs main p) (hf : fs p = some f) (hi : .imp k q ∈ f)
      (hq : header q = false) : Part fs main q

/-- What an item declares, as a name in its own file. -/
inductive Declares : Item → Prop where
  | fn (f : Name) (b : List Ref) : Declares (.fn f b)
  | struct (t : Name) (b : List Ref) : Declares (.struct t b)
  | method (t f : Name) (b : List Ref) : Declares (.method t f b)

/-- The places of the definitions in the C file. -/
def sites (evs : List Ev) : List (Path × Nat) :=
  evs.filterMap fun
    | .dfn _ p i => some (p, i)
    | _ => none

/-- The C compiler joins the name `c` with the definition at item `i` of `p`: that definition has this name and it is the
only one. -/
def Means (evs : List Ev) (c : Name) (p : Path) (i : Nat) : Prop :=
  Ev.dfn c p i ∈ evs ∧ ∀ q j, Ev.dfn c q j ∈ evs → q = p ∧ j = i

/-- The C names of the definitions. -/
def names (evs : List Ev) : List Name :=
  evs.filterMap fun
    | .dfn c _ _ => some c
    | _ => none

/-- No two definitions have the same C name: else the C compiler rejects the program. -/
def Accepted (evs : List Ev) : Prop := (names evs).Nodup

/-- A name stands in the item. -/
inductive Mentions (r : Ref) : Item → Prop where
  | fn {f : Name} {b : List Ref} (h : r ∈ b) : Mentions r (.fn f b)
  | struct {t : Name} {b : List Ref} (h : r ∈ b) : Mentions r (.struct t b)
  | method {t f : Name} {b : List Ref} (h : r ∈ b) : Mentions r (.method t f b)

/-- Every import of a program is plain. -/
def AllPlain (fs : Path → Option File) : Prop :=
  ∀ (p : Path) (f : File) (k : Import) (q : Path), fs p = some f → Item.imp k q ∈ f → k = .plain

/-- The targets of the imports of a file. -/
def targets (f : File) : List Path :=
  f.filterMap fun
    | .imp _ q => some q
    | _ => none

/-- Modules are imported once: nobody imports the main file, no file imports another twice, and a file imported with a name or
for single names is imported by one file only. -/
structure Once (fs : Path → Option File) (main : Path) : Prop where
  main : ∀ (p : Path) (f : File) (k : Import), fs p = some f → Item.imp k main ∉ f
  twice : ∀ (p : Path) (f : File), fs p = some f → (targets f).Nodup
  alone : ∀ (p p' : Path) (f f' : File) (k k' : Import) (q : Path), fs p = some f → fs p' = some f' → Item.imp k q ∈ f →
    Item.imp k' q ∈ f' → k ≠ .plain → p' = p

/-- No two imports give the same alias to different files, and no alias is the name of a single import. -/
structure Clear (fs : Path → Option File) : Prop where
  aliases : ∀ (p p' : Path) (f f' : File) (m : Name) (q q' : Path), fs p = some f → fs p' = some f' →
    Item.imp (.named m) q ∈ f → Item.imp (.named m) q' ∈ f' → q' = q
  single : ∀ (p p' : Path) (f f' : File) (m : Name) (q q' : Path) (ns : List (Name × Option Name))
    (x : Name × Option Name), fs p = some f → fs p' = some f' →
    Item.imp (.named m) q ∈ f → Item.imp (.sel ns) q' ∈ f' → x ∈ ns → x.2.getD x.1 ≠ m
  singles : ∀ (p p' : Path) (f f' : File) (q q' : Path) (ns ns' : List (Name × Option Name))
    (x x' : Name × Option Name), fs p = some f → fs p' = some f' →
    Item.imp (.sel ns) q ∈ f → Item.imp (.sel ns') q' ∈ f' → x ∈ ns → x' ∈ ns' →
    x'.2.getD x'.1 = x.2.getD x.1 → q' = q ∧ x'.1 = x.1

/-- No name of a single import. -/
def NoSingle (fs : Path → Option File) (n : Name) : Prop :=
  ∀ (p : Path) (f : File) (q : Path) (ns : List (Name × Option Name)) (x : Name × Option Name), fs p = some f →
    Item.imp (.sel ns) q ∈ f → x ∈ ns → x.2.getD x.1 ≠ n

/-- No alias of a module. -/
def NoAlias (fs : Path → Option File) (n : Name) : Prop :=
  ∀ (p : Path) (f : File) (q : Path) (m : Name), fs p = some f → Item.imp (.named m) q ∈ f → m ≠ n

/-- The files in the order in which they are tried for `import "fn"` in the file `cur`: beside the importing file (only there if
the name begins with `./` or `../`), in the current directory, in the include paths, in the installed ones. -/
def places (cur : Path) (incs roots : List Path) (fn : Path) : List Path :=
  (match dirOf cur with
    | some d => [join d fn]
    | none => []) ++ [fn] ++ (incs ++ roots).map (join · fn)

end Spec

end Verif.Modules
