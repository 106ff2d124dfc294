import Verif.Basic

/-!
# The language server: semantic tokens

Model of /repo/src/lsp/lsp_semantic.c:39-360: the traversal of the syntax tree, the sorting and the
delta encoding.

Simplifications: of a node only what the traversal looks at is kept; nodes of kinds the traversal does
not name (`if`, `while`, `match`, unary operators, indexes, casts, struct literals, ...) are `other`.
Numbers are unbounded.  `qsort` is any function that sorts; it need not keep the order of equal
elements.
-/

namespace Verif.Semantic
open Verif

/-- `Token` of a node: the line and column it begins at, from 1, and its length; 0 in a node without a
place. -/
structure Tok where
  line : Nat
  col : Nat
  len : Nat
  deriving DecidableEq, Repr

/-- `SemanticToken` (lsp_semantic.c:23-30). -/
structure STok where
  line : Nat
  col : Nat
  len : Nat
  type : Nat
  mods : Nat
  deriving DecidableEq, Repr

/-- Nodes that are only coloured: variables, fields, enum variants, type aliases, strings and
characters, numbers, other literals. -/
inductive Leaf where
  | var | field | variant | alias | str | num | plain
  deriving DecidableEq, Repr

/-- Nodes with a name and a list: structs, traits, impls, impls of traits, enums. -/
inductive Group where
  | struct | trait | impl | implTrait | enum
  deriving DecidableEq, Repr

mutual
/-- `ASTNode`.  A token is `none` if its type is `TOK_EOF`. -/
inductive Node where
  | leaf (k : Leaf) (t : Option Tok)
  | fn (t : Option Tok) (params : List Tok) (body : Nodes)
  | decl (const : Bool) (t : Option Tok) (init : Nodes)
  | block (b : Nodes)
  | ret (e : Nodes)
  | bin (l r : Node)
  | call (callee : Node) (args : Nodes)
  | member (target : Node) (t : Option Tok)
  | group (k : Group) (t : Option Tok) (items : Nodes)
  | destruct (init : Node) (els : Nodes)
  | arm (guard : Nodes) (body : Node)
  | lambda (body : Node)
  | range (a b body : Node)
  | other (kids : Nodes)
/-- Lists: siblings; also what may be missing. -/
inductive Nodes where
  | nil
  | cons (n : Node) (r : Nodes)
end

/-- `builder_push` (lsp_semantic.c:46-63). -/
def push (t : Option Tok) (type mods : Nat) : List STok :=
  match t with
  | some t => if 0 < t.line ∧ 0 < t.col then [⟨t.line - 1, t.col - 1, t.len, type, mods⟩] else []
  | none => []

/-- The type of a leaf (lsp_semantic.c:155-230, 265-278); literals of other kinds have none. -/
def leafTok (k : Leaf) (t : Option Tok) : List STok :=
  match k with
  | .var => push t 0 0
  | .field => push t 9 0
  | .variant => push t 8 0
  | .alias => push t 7 0
  | .str => push t 4 0
  | .num => push t 5 0
  | .plain => []

/-- The type of a group. -/
def groupTok (k : Group) (t : Option Tok) : List STok :=
  match k with
  | .enum => push t 8 0
  | _ => push t 2 0

mutual
/-- `traverse_node` (lsp_semantic.c:82-312). -/
def trav : Node → List STok
  | .leaf k t => leafTok k t
  | .fn t _ body => push t 1 1 ++ first body
  | .decl c t init => push t 0 (if c then 2 else 0) ++ first init
  | .block b => each b
  | .ret e => first e
  | .bin l r => trav l ++ trav r
  | .call f args => trav f ++ each args
  | .member x t => trav x ++ push t 9 0
  | .group k t items => groupTok k t ++ first items
  | .destruct e els => trav e ++ first els
  | .arm g b => first g ++ trav b
  | .lambda b => trav b
  | .range a b c => trav a ++ (trav b ++ trav c)
  | .other _ => []
/-- A node with its siblings: the statements of a block, arguments. -/
def each : Nodes → List STok
  | .nil => []
  | .cons n r => trav n ++ each r
/-- A node without its siblings. -/
def first : Nodes → List STok
  | .nil => []
  | .cons n _ => trav n
end

/-- The tokens of a file: its root has no siblings, and of its children the first is traversed
(lsp_semantic.c:301-304, 322-327). -/
def collect (file : Nodes) : List STok := first file

/-- `compare_tokens` is not positive (lsp_semantic.c:71-80). -/
def le (a b : STok) : Prop := a.line < b.line ∨ (a.line = b.line ∧ a.col ≤ b.col)

/-- What `qsort` may give. -/
def Sorted (l l' : List STok) : Prop := l'.Perm l ∧ l'.Pairwise le

/-- The token begins where the one before it begins (lsp_semantic.c:338-341). -/
def same (prev : Option STok) (t : STok) : Bool :=
  match prev with
  | some q => decide (t.line = q.line) && decide (t.col = q.col)
  | none => false

/-- The loop (lsp_semantic.c:334-358): `prev` is the element before in the array, `pl`, `pc` the place
of the last one that was written. -/
def encode (prev : Option STok) (pl pc : Int) : List STok → List Int
  | [] => []
  | t :: r =>
    if same prev t then
      encode (some t) pl pc r
    else
      let dl : Int := t.line - pl
      let dc : Int := if dl = 0 then t.col - pc else t.col
      dl :: dc :: (t.len : Int) :: (t.type : Int) :: (t.mods : Int) :: encode (some t) t.line t.col r

/-- The numbers of the answer. -/
def answer (sorted : List STok) : List Int := encode none 0 0 sorted

/-- The types the server announces (json_rpc.c:121-123). -/
def legend : List String :=
  ["variable", "function", "struct", "keyword", "string", "number", "comment", "type", "enum", "member",
    "operator", "parameter", "macro", "typeParameter"]

/-- The modifiers the server announces (json_rpc.c:123-126). -/
def modLegend : List String :=
  ["declaration", "definition", "readonly", "static", "deprecated", "abstract", "async", "modification",
    "documentation", "defaultLibrary"]

/-! ## What is expected -/

namespace Spec

/-- How a client reads the numbers (Language Server Protocol, semantic tokens). -/
def decode (l c : Int) : List Int → List (Int × Int × Int × Int × Int)
  | dl :: dc :: n :: t :: m :: r =>
    let l' := l + dl
    let c' := if dl = 0 then c + dc else dc
    (l', c', n, t, m) :: decode l' c' r
  | _ => []

/-- A token as a client sees it. -/
def seen (t : STok) : Int × Int × Int × Int × Int := (t.line, t.col, t.len, t.type, t.mods)

mutual
/-- The places to be coloured in a node: names, parameters and literals, at any depth. -/
def places : Node → List Tok
  | .leaf .plain _ => []
  | .leaf _ t => t.toList
  | .fn t ps body => t.toList ++ (ps ++ placess body)
  | .decl _ t init => t.toList ++ placess init
  | .block b => placess b
  | .ret e => placess e
  | .bin l r => places l ++ places r
  | .call f args => places f ++ placess args
  | .member x t => places x ++ t.toList
  | .group _ t items => t.toList ++ placess items
  | .destruct e els => places e ++ placess els
  | .arm g b => placess g ++ places b
  | .lambda b => places b
  | .range a b c => places a ++ (places b ++ places c)
  | .other kids => placess kids
/-- Lists. -/
def placess : Nodes → List Tok
  | .nil => []
  | .cons n r => places n ++ placess r
end

/-- Type and modifiers by name: a client looks the number of the type up in the legend, and takes the
modifiers whose bit is set. -/
def names (type mods : Nat) : Option String × List String :=
  (legend[type]?, (List.range 10).filterMap fun i => if mods.testBit i then modLegend[i]? else none)

mutual
/-- The same places with what they are. -/
def roles : Node → List (Tok × Option String × List String)
  | .leaf k t => t.toList.flatMap fun t =>
      match k with
      | .var => [(t, some "variable", [])]
      | .field => [(t, some "member", [])]
      | .variant => [(t, some "enum", [])]
      | .alias => [(t, some "type", [])]
      | .str => [(t, some "string", [])]
      | .num => [(t, some "number", [])]
      | .plain => []
  | .fn t ps body => t.toList.map (·, some "function", ["declaration"]) ++
      (ps.map (·, some "parameter", []) ++ roless body)
  | .decl c t init => t.toList.map (·, some "variable", if c then ["readonly"] else []) ++ roless init
  | .block b => roless b
  | .ret e => roless e
  | .bin l r => roles l ++ roles r
  | .call f args => roles f ++ roless args
  | .member x t => roles x ++ t.toList.map (·, some "member", [])
  | .group k t items => t.toList.map (·, some (match k with | .enum => "enum" | _ => "struct"), []) ++ roless items
  | .destruct e els => roles e ++ roless els
  | .arm g b => roless g ++ roles b
  | .lambda b => roles b
  | .range a b c => roles a ++ (roles b ++ roles c)
  | .other kids => roless kids
/-- Lists. -/
def roless : Nodes → List (Tok × Option String × List String)
  | .nil => []
  | .cons n r => roles n ++ roless r
end

mutual
/-- No constant is declared. -/
def NoConst : Node → Prop
  | .leaf _ _ => True
  | .fn _ _ body => NoConsts body
  | .decl c _ init => c = false ∧ NoConsts init
  | .block b => NoConsts b
  | .ret e => NoConsts e
  | .bin l r => NoConst l ∧ NoConst r
  | .call f args => NoConst f ∧ NoConsts args
  | .member x _ => NoConst x
  | .group _ _ items => NoConsts items
  | .destruct e els => NoConst e ∧ NoConsts els
  | .arm g b => NoConsts g ∧ NoConst b
  | .lambda b => NoConst b
  | .range a b c => NoConst a ∧ NoConst b ∧ NoConst c
  | .other kids => roless kids = []
/-- Lists. -/
def NoConsts : Nodes → Prop
  | .nil => True
  | .cons n r => NoConst n ∧ NoConsts r
end

/-- At most one. -/
def single : Nodes → Prop
  | .cons _ (.cons _ _) => False
  | _ => True

mutual
/-- What the theorem leaves out: parameters, lists of several fields, methods or variants, and nodes
the traversal does not name. -/
def Plain : Node → Prop
  | .leaf _ _ => True
  | .fn _ ps body => ps = [] ∧ single body ∧ Plains body
  | .decl _ _ init => single init ∧ Plains init
  | .block b => Plains b
  | .ret e => single e ∧ Plains e
  | .bin l r => Plain l ∧ Plain r
  | .call f args => Plain f ∧ Plains args
  | .member x _ => Plain x
  | .group _ _ items => single items ∧ Plains items
  | .destruct e els => Plain e ∧ single els ∧ Plains els
  | .arm g b => single g ∧ Plains g ∧ Plain b
  | .lambda b => Plain b
  | .range a b c => Plain a ∧ Plain b ∧ Plain c
  | .other kids => placess kids = []
/-- Lists. -/
def Plains : Nodes → Prop
  | .nil => True
  | .cons n r => Plain n ∧ Plains r
end

end Spec

end Verif.Semantic
