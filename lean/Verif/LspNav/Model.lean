import Verif.Basic

/-!
# The language server: rename, references, go to definition, hover

Model of what the parser records about names (/repo/src/parser/parser_expr.c:3277-3287, 3537-3554,
/repo/src/parser/parser_decl.c:135-200, 676, 748, /repo/src/parser/parser_utils.c:465-515, 612-630,
2291-2303, 4144-4193), of the index built from it (/repo/src/lsp/lsp_index.c:32-254), of the project
(/repo/src/lsp/lsp_project.c:103-316) and of the requests (/repo/src/lsp/lsp_analysis.c:139-305,
817-885, 1010-1133).

Simplifications: programs consist of functions with parameters (and default values that are literals
or variables) and of variables; expressions are literals, variables, calls by name, binary operators,
and `under` for every kind of expression or statement `lsp_walk_node` does not enter (unary
operators, members, indexes, casts, struct literals, interpolated strings, `assert`, `repeat`, ...).
Names carry their place in the file; the text itself is not modelled.  Constants (`def`), generic
functions, methods and imports are left out.  Programs are assumed to be parsed without errors.
-/

namespace Verif.LspNav
open Verif

/-! ## Programs -/

/-- A name in a file: `Token` with the line and column it begins at, from 1. -/
structure Tok where
  line : Nat
  col : Nat
  name : String
  deriving DecidableEq, Repr

mutual
/-- Expressions. -/
inductive Expr where
  | lit
  | var (t : Tok)
  | call (t : Tok) (args : Exprs)
  | bin (l r : Expr)
  | under (e : Expr)
/-- Arguments. -/
inductive Exprs where
  | nil
  | cons (e : Expr) (r : Exprs)
end

mutual
/-- Statements. -/
inductive Stmt where
  | decl (t : Tok) (e : Expr)
  | expr (e : Expr)
  | ifs (c : Expr) (a b : Block)
  | whiles (c : Expr) (b : Block)
  | ret (e : Expr)
  | block (b : Block)
  | under (e : Expr)
/-- Statement lists. -/
inductive Block where
  | nil
  | cons (s : Stmt) (r : Block)
end

/-- Top-level declarations: a function with its parameters, each with the variable that is its default
value if there is one, the text of its result type and its body; or a variable. -/
inductive Item where
  | fn (t : Tok) (params : List (Tok × Option Tok)) (ret : String) (body : Block)
  | glob (t : Tok) (e : Expr)

abbrev File := List Item

/-! ## What the parser records -/

/-- Which kind of `ASTNode`, as far as `lsp_walk_node` distinguishes; `other` is not entered. -/
inductive Kind where
  | fn | decl | var | call | group | other
  deriving DecidableEq, Repr

mutual
/-- `ASTNode`: kind, `token`, the name requests look at, `definition_token`, the hover text, and the
nodes below in the order they are walked. -/
inductive Node where
  | mk (k : Kind) (tok : Option Tok) (name : String) (dt : Option Tok) (hover : String) (kids : Nodes)
/-- Lists of nodes. -/
inductive Nodes where
  | nil
  | cons (n : Node) (r : Nodes)
end

/-- Lists after lists. -/
def Nodes.app : Nodes → Nodes → Nodes
  | .nil, b => b
  | .cons n r, b => .cons n (r.app b)

/-- `FuncSig`: the token of the name, and the default values by name. -/
abbrev Sig := Tok × List (Option String)

/-- The parts of `ParserContext` that matter: `func_registry` and the symbols of all open scopes,
innermost and latest first. -/
structure Ctx where
  funcs : List (String × Sig)
  syms : List (String × Option Tok)

/-- A variable (parser_expr.c:3545-3554). -/
def varNode (c : Ctx) (t : Tok) : Node :=
  .mk .var (some t) t.name ((c.syms.lookup t.name).bind id) "" .nil

/-- The arguments added for parameters that were not given (parser_expr.c:3151-3156): the default
value is read again from its text, so it is in line 1, column 1. -/
def defaultNodes (c : Ctx) : List (Option String) → Nodes
  | [] => .nil
  | none :: r => defaultNodes c r
  | some x :: r => .cons (varNode c ⟨1, 1, x⟩) (defaultNodes c r)

/-- How many arguments. -/
def Exprs.length : Exprs → Nat
  | .nil => 0
  | .cons _ r => r.length + 1

mutual
/-- `parse_expression`: calls of known functions (parser_expr.c:2935-3287), other calls. -/
def parseE (c : Ctx) : Expr → Node
  | .lit => .mk .other none "" none "" .nil
  | .var t => varNode c t
  | .call t args =>
    match c.funcs.lookup t.name with
    | some (d, defs) =>
      .mk .call (some t) t.name (some d) ""
        (.cons (.mk .var none t.name none "" .nil)
          ((parseEs c args).app (defaultNodes c (defs.drop args.length))))
    | none => .mk .call none t.name none "" (.cons (varNode c t) (parseEs c args))
  | .bin l r => .mk .group none "" none "" (.cons (parseE c l) (.cons (parseE c r) .nil))
  | .under e => .mk .other none "" none "" (.cons (parseE c e) .nil)
/-- Arguments. -/
def parseEs (c : Ctx) : Exprs → Nodes
  | .nil => .nil
  | .cons e r => .cons (parseE c e) (parseEs c r)
end

mutual
/-- `parse_statement`: the node, and the symbols afterwards.  `let` adds its name after its
initialiser (parser_decl.c:676). -/
def parseS (c : Ctx) : Stmt → Node × Ctx
  | .decl t e =>
    (.mk .decl (some t) t.name none ("var " ++ t.name) (.cons (parseE c e) .nil),
      { c with syms := (t.name, some t) :: c.syms })
  | .expr e => (parseE c e, c)
  | .ifs e a b => (.mk .group none "" none "" (.cons (parseE c e) (.cons
    (.mk .group none "" none "" (parseL c a)) (.cons (.mk .group none "" none "" (parseL c b)) .nil))), c)
  | .whiles e b => (.mk .group none "" none "" (.cons (parseE c e) (.cons
    (.mk .group none "" none "" (parseL c b)) .nil)), c)
  | .ret e => (.mk .group none "" none "" (.cons (parseE c e) .nil), c)
  | .block b => (.mk .group none "" none "" (parseL c b), c)
  | .under e => (.mk .other none "" none "" (.cons (parseE c e) .nil), c)
/-- The statements of a block; its names are forgotten at its end. -/
def parseL (c : Ctx) : Block → Nodes
  | .nil => .nil
  | .cons s r => .cons (parseS c s).1 (parseL (parseS c s).2 r)
end

/-- Parameters enter the scope without a token (parser_utils.c:4144). -/
def paramSyms (ps : List (Tok × Option Tok)) : List (String × Option Tok) :=
  (ps.map (fun p => (p.1.name, none))).reverse

/-- The hover text of a function (lsp_index.c:125-127). -/
def fnHover (x ret : String) : String := "fn " ++ x ++ "(...) -> " ++ ret

/-- A top-level declaration.  A function is registered before its body is read
(parser_decl.c:139-143); its parameters live in a scope of their own. -/
def parseItem (c : Ctx) : Item → Node × Ctx
  | .fn t ps ret body =>
    let funcs := (t.name, (t, ps.map (fun p => p.2.map Tok.name))) :: c.funcs
    (.mk .fn (some t) t.name none (fnHover t.name ret)
      (.cons (.mk .group none "" none "" (parseL ⟨funcs, paramSyms ps ++ c.syms⟩ body)) .nil), { c with funcs := funcs })
  | .glob t e =>
    (.mk .decl (some t) t.name none ("var " ++ t.name) (.cons (parseE c e) .nil),
      { c with syms := (t.name, some t) :: c.syms })

/-- `parse_program_nodes`.  The scope `parse_program` enters is never left
(parser_core.c:951-960). -/
def parseFile (c : Ctx) : File → Nodes × Ctx
  | [] => (.nil, c)
  | i :: r => (.cons (parseItem c i).1 (parseFile (parseItem c i).2 r).1, (parseFile (parseItem c i).2 r).2)

/-! ## The index -/

/-- `LSPRange`: of a definition, or of a reference with the place of the definition. -/
structure Rng where
  tok : Tok
  name : String
  dt : Option Tok
  hover : String
  deriving DecidableEq, Repr

/-- `RANGE_DEFINITION`. -/
def Rng.isDef (r : Rng) : Bool := r.dt.isNone

/-- `lsp_index_add_def` (lsp_index.c:46-64). -/
def addDef (k : Kind) (tok : Option Tok) (name hover : String) : List Rng :=
  match tok with
  | some t => if (k = .fn ∨ k = .decl) ∧ 0 < t.line then [⟨t, name, none, hover⟩] else []
  | none => []

/-- `lsp_index_add_ref` (lsp_index.c:66-85, 184-192). -/
def addRef (tok dt : Option Tok) (name : String) : List Rng :=
  match tok, dt with
  | some t, some d => if 0 < t.line ∧ 0 < d.line then [⟨t, name, some d, ""⟩] else []
  | _, _ => []

mutual
/-- `lsp_walk_node` (lsp_index.c:114-249). -/
def walk : Node → List Rng
  | .mk k tok name dt hover kids =>
    addDef k tok name hover ++ addRef tok dt name ++ (if k = .other then [] else walks kids)
/-- Siblings. -/
def walks : Nodes → List Rng
  | .nil => []
  | .cons n r => walk n ++ walks r
end

/-- A place in a file, from 0, in a range, whose end is included (lsp_index.c:87-112,
lsp_analysis.c:1017-1020). -/
def Rng.covers (r : Rng) (line col : Nat) : Bool :=
  r.tok.line - 1 == line && decide (r.tok.col - 1 ≤ col) && decide (col ≤ r.tok.col - 1 + r.tok.name.length)

/-- `lsp_find_at`: the last range with the place (lsp_index.c:87-112). -/
def findAt (idx : List Rng) (line col : Nat) : Option Rng :=
  idx.reverse.find? (fun r => r.covers line col)

/-- `get_symbol_at`: the first (lsp_analysis.c:1010-1054). -/
def symbolAt (idx : List Rng) (line col : Nat) : Option String :=
  (idx.find? (fun r => r.covers line col)).map (·.name)

/-! ## The project -/

/-- `LSPProject`: the context, which is never reset, and the files, latest first. -/
structure Proj where
  ctx : Ctx
  files : List (String × List Rng)

/-- The project before any file. -/
def Proj.new : Proj := ⟨⟨[], []⟩, []⟩

/-- The hover text is printed into 256 bytes (lsp_index.c:124-172). -/
def fits (idx : List Rng) : Bool := idx.all (fun r => decide (r.hover.length < 256))

/-- Replacing the index of a file. -/
def setFile (u : String) (idx : List Rng) : List (String × List Rng) → List (String × List Rng)
  | [] => []
  | (v, i) :: r => if v = u then (v, idx) :: r else (v, i) :: setFile u idx r

/-- `lsp_project_update_file` (lsp_project.c:142-186). -/
def Proj.update (p : Proj) (u : String) (f : File) : Res Proj :=
  let r := parseFile p.ctx f
  let idx := walks r.1
  if fits idx then
    .ok ⟨r.2, if p.files.any (fun q => q.1 == u) then setFile u idx p.files else (u, idx) :: p.files⟩
  else .ub

/-- A session: the files as they are scanned, opened and changed. -/
def session (p : Proj) : List (String × File) → Res Proj
  | [] => .ok p
  | (u, f) :: r =>
    match p.update u f with
    | .ok q => session q r
    | .panic => .panic
    | .ub => .ub

/-- The index of a file. -/
def Proj.index (p : Proj) (u : String) : Option (List Rng) := p.files.lookup u

/-! ## Requests -/

/-- `lsp_project_find_references` (lsp_project.c:243-316). -/
def Proj.references (p : Proj) (x : String) : List (String × Tok) :=
  p.files.flatMap (fun f => (f.2.filter (fun r => r.name == x)).map (fun r => (f.1, r.tok)))

/-- `lsp_references` (lsp_analysis.c:817-885). -/
def Proj.refsAt (p : Proj) (u : String) (line col : Nat) : List (String × Tok) :=
  match p.index u with
  | none => []
  | some idx =>
    match findAt idx line col with
    | none => []
    | some r => p.references r.name

/-- `tolower` of ASCII. -/
def lower (u : String) : List Char := u.toList.map Char.toLower

/-- Adding an edit to the object `changes`: `cJSON_GetObjectItem` ignores case
(lsp_analysis.c:1085-1091, cJSON.c:135-156, 2005-2008). -/
def addEdit (u : String) (t : Tok) : List (String × List Tok) → List (String × List Tok)
  | [] => [(u, [t])]
  | (v, es) :: r => if lower v = lower u then (v, es ++ [t]) :: r else (v, es) :: addEdit u t r

/-- `lsp_rename`: the edits for each file, `none` for a null result (lsp_analysis.c:1056-1133). -/
def Proj.rename (p : Proj) (u : String) (line col : Nat) : Option (List (String × List Tok)) :=
  match p.index u with
  | none => none
  | some idx =>
    match symbolAt idx line col with
    | none => none
    | some x => some ((p.references x).foldl (fun a e => addEdit e.1 e.2 a) [])

/-- `lsp_project_find_definition` (lsp_project.c:188-239). -/
def Proj.findDefinition (p : Proj) (x : String) : Option (String × Rng) :=
  p.files.findSome? (fun f => (f.2.find? (fun r => r.isDef && r.name == x)).map (fun r => (f.1, r)))

/-- `lsp_goto_definition`: the file, line and column the answer begins at, from 0
(lsp_analysis.c:139-210). -/
def Proj.goto (p : Proj) (u : String) (line col : Nat) : Option (String × Nat × Nat) :=
  match p.index u with
  | none => none
  | some idx =>
    match findAt idx line col with
    | none => none
    | some r =>
      match r.dt with
      | none => some (u, r.tok.line - 1, r.tok.col - 1)
      | some d =>
        if (findAt idx (d.line - 1) (d.col - 1)).any Rng.isDef then some (u, d.line - 1, d.col - 1)
        else (p.findDefinition r.name).map (fun q => (q.1, q.2.tok.line - 1, q.2.tok.col - 1))

/-- `lsp_hover`: the text (lsp_analysis.c:247-305). -/
def Proj.hover (p : Proj) (u : String) (line col : Nat) : Option String :=
  match p.index u with
  | none => none
  | some idx =>
    match findAt idx line col with
    | none => none
    | some r =>
      match r.dt with
      | none => some r.hover
      | some d =>
        match findAt idx (d.line - 1) (d.col - 1) with
        | some q => if q.isDef then some q.hover else none
        | none => none

/-! ## What is expected -/

namespace Spec

/-- A declaration: the file and the name there. -/
abbrev Decl := String × Tok

abbrev Env := List (String × Decl)

/-- What a name stands for: the innermost declaration, or that of the project. -/
def find (top env : Env) (x : String) : Option Decl :=
  match env.lookup x with
  | some d => some d
  | none => top.lookup x

mutual
/-- The names in an expression and what they stand for. -/
def usesE (top env : Env) : Expr → List (Tok × Option Decl)
  | .lit => []
  | .var t => [(t, find top env t.name)]
  | .call t args => (t, find top env t.name) :: usesEs top env args
  | .bin l r => usesE top env l ++ usesE top env r
  | .under e => usesE top env e
/-- Arguments. -/
def usesEs (top env : Env) : Exprs → List (Tok × Option Decl)
  | .nil => []
  | .cons e r => usesE top env e ++ usesEs top env r
end

/-- The variables after a statement. -/
def after (u : String) (env : Env) : Stmt → Env
  | .decl t _ => (t.name, (u, t)) :: env
  | _ => env

mutual
/-- The names in a statement. -/
def usesS (u : String) (top env : Env) : Stmt → List (Tok × Option Decl)
  | .decl t e => (t, some (u, t)) :: usesE top env e
  | .expr e => usesE top env e
  | .ifs c a b => usesE top env c ++ (usesB u top env a ++ usesB u top env b)
  | .whiles c b => usesE top env c ++ usesB u top env b
  | .ret e => usesE top env e
  | .block b => usesB u top env b
  | .under e => usesE top env e
/-- Lists. -/
def usesB (u : String) (top env : Env) : Block → List (Tok × Option Decl)
  | .nil => []
  | .cons s r => usesS u top env s ++ usesB u top (after u env s) r
end

/-- The names in a default value. -/
def usesD (top : Env) : Option Tok → List (Tok × Option Decl)
  | none => []
  | some t => [(t, top.lookup t.name)]

/-- The names in a declaration. -/
def usesI (u : String) (top : Env) : Item → List (Tok × Option Decl)
  | .fn t ps _ body =>
    (t, some (u, t)) :: (ps.flatMap (fun p => (p.1, some (u, p.1)) :: usesD top p.2)
      ++ usesB u top (ps.map (fun p => (p.1.name, (u, p.1)))).reverse body)
  | .glob t e => (t, some (u, t)) :: usesE top [] e

/-- The names in a file. -/
def usesF (u : String) (top : Env) (f : File) : List (Tok × Option Decl) := f.flatMap (usesI u top)

/-- The name of a declaration at the top level. -/
def Item.tok : Item → Tok
  | .fn t _ _ _ => t
  | .glob t _ => t

/-- The files as they are now. -/
def current (hist : List (String × File)) (u : String) : Option File := hist.reverse.lookup u

/-- Everything declared at the top level of the files as they are now. -/
def tops (us : List String) (hist : List (String × File)) : Env :=
  us.flatMap (fun u => ((current hist u).getD []).map (fun i => ((Item.tok i).name, (u, Item.tok i))))

/-- The names of the files. -/
def uris (hist : List (String × File)) : List String := (hist.map (·.1)).eraseDups

/-- The names of the project and what they stand for. -/
def uses (hist : List (String × File)) (u : String) : List (Tok × Option Decl) :=
  usesF u (tops (uris hist) hist) ((current hist u).getD [])

/-- The two names have a character between them. -/
def Apart (a b : Tok) : Prop :=
  a.line ≠ b.line ∨ a.col + a.name.length < b.col ∨ b.col + b.name.length < a.col

/-- The place is in the name. -/
def At (t : Tok) (line col : Nat) : Prop :=
  t.line = line + 1 ∧ t.col ≤ col + 1 ∧ col + 1 ≤ t.col + t.name.length

mutual
/-- The variables declared in a statement. -/
def letsS : Stmt → List Tok
  | .decl t _ => [t]
  | .ifs _ a b => letsB a ++ letsB b
  | .whiles _ b => letsB b
  | .block b => letsB b
  | _ => []
/-- Lists. -/
def letsB : Block → List Tok
  | .nil => []
  | .cons s r => letsS s ++ letsB r
end

/-- The functions and variables a file declares, at any depth, with what is to be shown for them. -/
def decls (f : File) : List (Tok × String) :=
  f.flatMap (fun i => match i with
    | .fn t _ ret body => (t, "fn " ++ t.name ++ "(...) -> " ++ ret) ::
        (letsB body).map (fun t => (t, "var " ++ t.name))
    | .glob t _ => [(t, "var " ++ t.name)])

/-! ### What the theorems leave out -/

/-- The names in an expression. -/
def namesE (e : Expr) : List String := (usesE [] [] e).map (·.1.name)

/-- The names in a list of statements. -/
def namesB (b : Block) : List String := (usesB "" [] [] b).map (·.1.name)

mutual
/-- The name is not below a construct that is not walked, and, if it is that of a function (`k`),
only called. -/
def PlainE (k : Bool) (x : String) : Expr → Prop
  | .lit => True
  | .var t => k = true → t.name ≠ x
  | .call _ args => PlainEs k x args
  | .bin l r => PlainE k x l ∧ PlainE k x r
  | .under e => x ∉ namesE e
/-- Arguments. -/
def PlainEs (k : Bool) (x : String) : Exprs → Prop
  | .nil => True
  | .cons e r => PlainE k x e ∧ PlainEs k x r
end

mutual
/-- The same for statements. -/
def PlainS (k : Bool) (x : String) : Stmt → Prop
  | .decl t e => (k = true → t.name ≠ x) ∧ PlainE k x e
  | .expr e => PlainE k x e
  | .ifs c a b => PlainE k x c ∧ PlainB k x a ∧ PlainB k x b
  | .whiles c b => PlainE k x c ∧ PlainB k x b
  | .ret e => PlainE k x e
  | .block b => PlainB k x b
  | .under e => x ∉ namesE e
/-- Lists. -/
def PlainB (k : Bool) (x : String) : Block → Prop
  | .nil => True
  | .cons s r => PlainS k x s ∧ PlainB k x r
end

/-- The same for declarations; the name is not that of a parameter. -/
def PlainI (k : Bool) (x : String) : Item → Prop
  | .fn t ps _ body => (t.name = x → k = true) ∧ (∀ p ∈ ps, p.1.name ≠ x) ∧ PlainB k x body
  | .glob t e => (k = true → t.name ≠ x) ∧ PlainE k x e

/-- No default value is a variable. -/
def NoDefaults (f : File) : Prop :=
  ∀ i ∈ f, match i with
    | .fn _ ps _ _ => ∀ p ∈ ps, p.2 = none
    | .glob _ _ => True

/-- The declaration declares the function (`k`) or variable `x`. -/
def declares (k : Bool) (x : String) : Item → Bool
  | .fn t _ _ _ => k && t.name == x
  | .glob t _ => !k && t.name == x

/-- The name is used in the declaration. -/
def inside (x : String) : Item → Prop
  | .fn _ _ _ body => x ∈ namesB body
  | .glob _ e => x ∈ namesE e

/-- Every use of `x` comes after its declaration, or the declaration was `known` before. -/
def Above (k : Bool) (x : String) : Bool → File → Prop
  | _, [] => True
  | known, i :: r => (inside x i → known = true ∨ (k = true ∧ declares k x i = true)) ∧
      Above k x (known || declares k x i) r

/-- Whenever a file was read last, `x` was declared above its uses or in a file read before. -/
def Settled (k : Bool) (x : String) (hist : List (String × File)) : Prop :=
  ∀ pre u f post, hist = pre ++ (u, f) :: post → u ∉ post.map (·.1) →
    Above k x (pre.any (fun q => q.2.any (declares k x))) f

/-- The names in a file. -/
def names (f : File) : List Tok := (usesF "" [] f).map (·.1)

/-- The project uses `x`, a function (`k`) or a variable, for one thing only, `d`; as the theorems
want it. -/
structure Fit (k : Bool) (x : String) (d : Decl) (hist : List (String × File)) : Prop where
  /-- Lines and columns are counted from 1. -/
  placed : ∀ q ∈ hist, ∀ t ∈ names q.2, 0 < t.line ∧ 0 < t.col
  /-- No default value is a variable. -/
  bare : ∀ q ∈ hist, NoDefaults q.2
  /-- Names do not touch. -/
  apart : ∀ u f, current hist u = some f → (names f).Pairwise Apart
  /-- `x` is not used where the index does not look. -/
  plain : ∀ u f, current hist u = some f → ∀ i ∈ f, PlainI k x i
  /-- Every `x` is `d`. -/
  bound : ∀ u, ∀ p ∈ uses hist u, p.1.name = x → p.2 = some d
  /-- If it is declared at the top level, then before it is used. -/
  settled : (tops (uris hist) hist).lookup x ≠ none → Settled k x hist

end Spec

end Verif.LspNav
