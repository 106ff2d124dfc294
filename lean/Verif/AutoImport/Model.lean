import Verif.Modules.Model

/-!
# Files that are imported without being named

A loop over an array needs `std/slice.zc`, an `impl Drop`, `Copy` or `Clone` needs `std/mem.zc`.  The parser imports them by itself when it comes to such a place
(`auto_import_std_slice`, /repo/src/parser/parser_stmt.c:26-129, called at 1354; `auto_import_std_mem`, /repo/src/parser/parser_struct.c:22-121, called at 343).

Simplified: a file is the list of what is in it, in order.  All that is declared is in the tree of the file; besides, the context keeps lists of it, and what is in the
tree or in a list is printed (/repo/src/codegen/codegen_main.c:380-720).  `auto_import_std_slice` also does nothing if there is a template called `Slice`; here it does
nothing only if the file was imported, which is the same unless the program has a template of this name itself.
-/

namespace Verif.AutoImport

open Verif.Modules (Path dirOf join search)

/-- What is declared: a struct, a trait or an `impl`; a function; a global variable or constant; a line for the preprocessor, a `raw` block or an `include`. -/
inductive Kind where
  | type | func | glob | line
  deriving DecidableEq, Repr

/-- Is a declaration kept in a list, when its file is parsed in the middle of such a place (0 is outside of functions, 1 in a function, 2 in a method)?  A global only if there is no scope around it
(/repo/src/parser/parser_decl.c:779-782, 914-917), a function only if no `impl` is open (/repo/src/parser/parser_decl.c:224-227), types always
(/repo/src/parser/parser_utils.c:735-770, /repo/src/parser/parser_struct.c:265), lines never.  Simplified: an `impl` in the file closes the one around it
(/repo/src/parser/parser_struct.c:506, 680, 780), so that a function behind it is kept after all. -/
def kept (sc : Nat) : Kind → Bool
  | .type => true
  | .func => sc < 2
  | .glob => sc < 1
  | .line => false

/-- What is in a file; `auto sc q` is a place that needs `q`. -/
inductive Item where
  | decl (k : Kind) (n : Nat)
  | imp (q : Path)
  | auto (sc : Nat) (q : Path)
  deriving DecidableEq, Repr

abbrev File := List Item
/-- A declaration: the file and its number there. -/
abbrev Decl := Path × Nat

/-- `ParserContext` (/repo/src/parser/parser.h:280-330): `imported_files` and the lists of declarations. -/
structure St where
  imported : List Path
  lists : List Decl
  deriving DecidableEq, Repr

/-- `mark_file_imported` (/repo/src/parser/parser_utils.c:3383-3389). -/
def mark (q : Path) (s : St) : St := { s with imported := q :: s.imported }

/-- `parse_program_nodes` over the items of the file `p`: the tree, and the context afterwards.  `rec` parses another file; `sc` is where this one is parsed.
`parse_import` (/repo/src/parser/parser_stmt.c:3747-3752, 3806-3822, 3851-3900) puts the tree of the imported file in its place, a file that cannot be read is an error;
the two other functions drop the tree (/repo/src/parser/parser_stmt.c:99-128, /repo/src/parser/parser_struct.c:91-120) and do nothing without the file. -/
def run (fs : Path → Option File) (rec : Nat → Path → File → St → Option (List Decl × St)) (sc : Nat) (p : Path) :
    List Item → St → Option (List Decl × St)
  | [], s => some ([], s)
  | .decl k n :: r, s =>
    match run fs rec sc p r (if kept sc k then { s with lists := (p, n) :: s.lists } else s) with
    | none => none
    | some (ns, s') => some ((p, n) :: ns, s')
  | .imp q :: r, s =>
    if q ∈ s.imported then run fs rec sc p r s
    else
      match fs q with
      | none => none
      | some f =>
        match rec sc q f (mark q s) with
        | none => none
        | some (a, s1) =>
          match run fs rec sc p r s1 with
          | none => none
          | some (b, s2) => some (a ++ b, s2)
  | .auto sc' q :: r, s =>
    match fs q with
    | none => run fs rec sc p r s
    | some f =>
      if q ∈ s.imported then run fs rec sc p r s
      else
        match rec (max sc sc') q f (mark q s) with
        | none => none
        | some (_, s1) => run fs rec sc p r s1

/-- Files within files; the number bounds how deep. -/
def parse (fs : Path → Option File) : Nat → Nat → Path → File → St → Option (List Decl × St)
  | 0, _, _, _, _ => none
  | n + 1, sc, p, f, s => run fs (parse fs n) sc p f s

/-- The program with this main file (/repo/src/main.c:448-470): the tree and the context. -/
def program (fs : Path → Option File) (n : Nat) (main : Path) : Option (List Decl × St) :=
  match fs main with
  | none => none
  | some f => parse fs n 0 main f (mark main ⟨[], []⟩)

/-- Where such a file is searched (/repo/src/parser/parser_stmt.c:39-92, /repo/src/parser/parser_struct.c:31-84): `cur` is the current file, `roots` are
`/usr/local/share/zenc` and `/usr/share/zenc`.  Simplified: paths have room in 1024 bytes. -/
def autoLocate (readable : Path → Bool) (cur : Path) (roots : List Path) (fn : Path) : Option Path :=
  let near := match dirOf cur with
    | some d => if readable (join d fn) then some (join d fn) else none
    | none => none
  match near with
  | some p => some p
  | none =>
    if readable fn then some fn
    else if readable (join "." fn) then some (join "." fn)
    else search readable fn roots

namespace Spec

/-- the file `f` imports `q` or has a place that needs it -/
def Needs (f : File) (q : Path) : Prop := .imp q ∈ f ∨ ∃ sc, .auto sc q ∈ f

/-- `r` is needed by `p`, directly or not -/
inductive Reach (fs : Path → Option File) : Path → Path → Prop where
  | refl (p : Path) : Reach fs p p
  | step {p q r : Path} {f : File} (hf : fs p = some f) (hi : Needs f q) (h : Reach fs q r) : Reach fs p r

/-- `r` is needed by a file that is imported without being named -/
def Hidden (fs : Path → Option File) (r : Path) : Prop :=
  ∃ p f sc a, fs p = some f ∧ .auto sc a ∈ f ∧ Reach fs a r

end Spec

end Verif.AutoImport
