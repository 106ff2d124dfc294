import Verif.Forth.Model

/-!
# Plugins: import, lookup, and the text of blocks

The list of loaded plugins (`/repo/src/plugins/plugin_manager.c`), the imports of a program
(`/repo/src/parser/parser_utils.c:4273-4330`), and the two forms of blocks, `name! { ... }`
(`/repo/src/parser/parser_stmt.c:2092-2211`) and `plugin name ... end`
(`/repo/src/parser/parser_stmt.c:4106-4166`, `/repo/src/codegen/codegen.c:1375-1391`).

Simplifications: the lexer is left out, blocks are lists of tokens; the dynamic loader is any function from paths
to plugins; `z_get_run_prefix()` is `./` and `z_get_plugin_ext()` is `.so`; a plugin is its name and a function
from the text of a block to the text it writes, what it writes elsewhere is left out.
-/

namespace Verif.Plugin

abbrev Str := Forth.Str

/-- A plugin: its own name, and what it makes of a block.  /repo/plugins/zprep_plugin.h:35-39. -/
structure P where
  name : Str
  fn : Str → Str

/-- The dynamic loader: the plugin in the file of this path, if it can be loaded.
/repo/src/plugins/plugin_manager.c:45-66. -/
abbrev Loader := Str → Option P

/-- What is loaded, latest first, and what is imported, latest first, with the alias.
/repo/src/plugins/plugin_manager.c:16, /repo/src/parser/parser_utils.c:4307-4311. -/
structure St where
  loaded : List P := []
  imported : List (Str × Option Str) := []

/-- `zptr_find_plugin`.  /repo/src/plugins/plugin_manager.c:79-92. -/
def find (ps : List P) (n : Str) : Option P := ps.find? (·.name = n)

/-- `snprintf` into `path[1024]`.  /repo/src/parser/parser_utils.c:4285,4292. -/
def cut (s : Str) : Str := s.take 1023

/-- The paths that are tried in turn.  /repo/src/parser/parser_utils.c:4281-4295. -/
def paths (n : Str) : List Str :=
  [n, cut (n ++ ".so".toList)] ++ if '/' ∈ n then [] else [cut ("./".toList ++ n ++ ".so".toList)]

/-- `register_plugin`: `none` if it cannot be loaded, which ends the compiler.
/repo/src/parser/parser_utils.c:4273-4312. -/
def register (dl : Loader) (st : St) (n : Str) (alias : Option Str) : Option St :=
  match find st.loaded n with
  | some p => some { st with imported := (p.name, alias) :: st.imported }
  | none =>
    match (paths n).findSome? dl with
    | some p => some { loaded := p :: st.loaded, imported := (p.name, alias) :: st.imported }
    | none => none

/-- `resolve_plugin`.  /repo/src/parser/parser_utils.c:4314-4330. -/
def resolve (st : St) (x : Str) : Option Str :=
  (st.imported.find? fun i => i.2 = some x || i.1 = x).map (·.1)

/-- The tokens, as far as they matter to blocks. -/
inductive Kind where
  | ident
  | lbrace
  | rbrace
  | other
  deriving DecidableEq

/-- A token with its text and line. -/
structure Tok where
  kind : Kind
  text : Str
  line : Nat

/-- The loop of `parse_macro_call` over the tokens behind the opening brace, with the depth, the last line and the
text so far: the text and the tokens behind the closing brace; `none` at the end of the file.
/repo/src/parser/parser_stmt.c:2116-2158. -/
def macroLoop : Nat → Nat → Str → List Tok → Option (Str × List Tok)
  | _, _, _, [] => none
  | depth, last, body, t :: ts =>
    let depth := if t.kind = .lbrace then depth + 1 else depth
    let depth := if t.kind = .rbrace then depth - 1 else depth
    if depth = 0 then some (body, ts)
    else
      let body := if body.length + t.text.length + 2 < 8192 then
        body ++ (if last < t.line then '\n' else ' ') :: t.text else body
      macroLoop depth t.line body ts

/-- How a block ends. -/
inductive Res where
  | text (s : Str) (rest : List Tok)
  | error

/-- `parse_macro_call` behind the name and the `!`: the text that takes the place of the block, or an error.
/repo/src/parser/parser_stmt.c:2092-2211. -/
def macroCall (st : St) (x : Str) (line : Nat) : List Tok → Res
  | t :: ts =>
    if t.kind = .lbrace then
      match macroLoop 1 line [] ts with
      | none => .error
      | some (body, rest) =>
        match resolve st x with
        | none => .error
        | some n =>
          match find st.loaded n with
          | none => .error
          | some p => .text (p.fn body) rest
    else .error
  | [] => .error

/-- The loop of `parse_plugin` over the tokens behind the name.  /repo/src/parser/parser_stmt.c:4122-4153. -/
def pluginLoop : Str → List Tok → Option (Str × List Tok)
  | _, [] => none
  | body, t :: ts =>
    if t.kind = .ident ∧ t.text = "end".toList then some (body, ts)
    else pluginLoop (if body.length + t.text.length + 2 < 8192 then body ++ t.text ++ [' '] else body) ts

/-- `case NODE_PLUGIN` of the code generator.  /repo/src/codegen/codegen.c:1375-1391. -/
def pluginCode (st : St) (n body : Str) : Str :=
  match find st.loaded n with
  | some p => p.fn body
  | none => "/* Unknown plugin: ".toList ++ n ++ " */\n".toList

/-- `parse_plugin` behind the word `plugin`, with the code of its node; a semicolon behind `end` belongs to it.
Simplification: the code is generated here and not later.  /repo/src/parser/parser_stmt.c:4106-4166. -/
def pluginBlock (st : St) : List Tok → Res
  | n :: ts =>
    if n.kind = .ident then
      match pluginLoop [] ts with
      | none => .error
      | some (body, rest) =>
        .text (pluginCode st n.text body) (match rest with
          | t :: r => if t.text = [';'] then r else t :: r
          | [] => [])
    else .error
  | [] => .error

/-! ## Specification -/

namespace Spec

/-- An import that went well: the plugin it found, and the alias. -/
structure Import where
  plugin : P
  alias : Option Str

/-- The name or the alias `x` is that of the import. -/
def Import.named (i : Import) (x : Str) : Prop := i.alias = some x ∨ i.plugin.name = x

/-- What a name means behind imports, latest first: the plugin of the latest import of that name. -/
inductive Means : List Import → Str → P → Prop
  | here {i is x} : i.named x → Means (i :: is) x i.plugin
  | there {i is x p} : ¬ i.named x → Means is x p → Means (i :: is) x p

/-- A plugin of a loader. -/
def Has (dl : Loader) (p : P) : Prop := ∃ path, dl path = some p

/-- Balanced tokens. -/
inductive Bal : List Tok → Prop
  | nil : Bal []
  | tok {t ts} : t.kind ≠ .lbrace → t.kind ≠ .rbrace → Bal ts → Bal (t :: ts)
  | block {o a c b} : o.kind = .lbrace → Bal a → c.kind = .rbrace → Bal b → Bal (o :: (a ++ c :: b))

/-- The text of tokens, each behind a blank or, on a new line, behind a line feed. -/
def lined : Nat → List Tok → Str
  | _, [] => []
  | last, t :: ts => (if last < t.line then '\n' else ' ') :: t.text ++ lined t.line ts

/-- The text of tokens, each before a blank. -/
def spaced (ts : List Tok) : Str := ts.flatMap fun t => t.text ++ [' ']

end Spec

end Verif.Plugin
