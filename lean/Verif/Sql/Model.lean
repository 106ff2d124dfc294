import Verif.Basic
import Verif.Forth.Model

/-!
# The SQL plugin (`/repo/plugins/sql.c`)

The whole plugin is modelled as a function from the text of a block, and the tables of the blocks before
it, to the text it writes.  Texts are lists of characters without NUL.  `isspace`, `isalnum` and
`strncasecmp` are those of the C locale.

Simplifications: what goes to `stderr` is left out; loops take fuel, of which there is always enough
(`transpile_ends`); what is written before an `exit(1)` is left out.
-/

namespace Verif.Sql

abbrev Str := Forth.Str
open Forth (Out isspace)

/-- `isalnum(c) || c == '_'`.  /repo/plugins/sql.c:118,133,162. -/
def word (c : Char) : Bool :=
  ('0' ≤ c && c ≤ '9') || ('a' ≤ c && c ≤ 'z') || ('A' ≤ c && c ≤ 'Z') || c = '_'

/-- Upper case: what `strncasecmp` compares.  /repo/plugins/sql.c:118. -/
def upper (c : Char) : Char := if 'a' ≤ c && c ≤ 'z' then Char.ofNat (c.toNat - 32) else c

/-- Where `skip_whitespace` is. -/
inductive Mode where
  | blank
  | line
  | block

/-- `skip_whitespace`: over blanks and comments of C.  /repo/plugins/sql.c:77-113. -/
def skip : Mode → Str → Str
  | _, [] => []
  | .blank, '/' :: '/' :: r => skip .line r
  | .blank, '/' :: '*' :: r => skip .block r
  | .blank, c :: r => if isspace c then skip .blank r else c :: r
  | .line, c :: r => if c = '\n' then skip .blank r else skip .line r
  | .block, '*' :: '/' :: r => skip .blank r
  | .block, _ :: r => skip .block r

/-- `match_kw`: what is left behind the word.  /repo/plugins/sql.c:115-124. -/
def kw (k p : Str) : Option Str :=
  if (p.take k.length).map upper = k ∧ (p.drop k.length).head?.any word = false then some (p.drop k.length)
  else none

/-- The columns of a table: name, and whether it is text. -/
abbrev Cols := List (Str × Bool)

/-- The tables known to the plugin, latest first.  /repo/plugins/sql.c:8-75. -/
abbrev Tables := List (Str × Cols)

/-- A word and what is behind it.  /repo/plugins/sql.c:132-139,158-174,177-182. -/
def name (p : Str) : Str × Str := (p.takeWhile word, p.dropWhile word)

/-- A type that is text: a beginning of `TEXT` or `STRING`.  /repo/plugins/sql.c:187-188. -/
def isText (ty : Str) : Bool :=
  ty ≠ [] && ((ty.map upper).isPrefixOf "TEXT".toList || (ty.map upper).isPrefixOf "STRING".toList)

/-- The rest behind the character `c`, if it is there.  /repo/plugins/sql.c:199-202. -/
def eat (c : Char) : Str → Str
  | d :: r => if d = c then r else d :: r
  | [] => []

/-- The loop over the columns: names of 32 characters and more do not fit.
/repo/plugins/sql.c:158-203. -/
def cols : Nat → Str → Out (Cols × Str)
  | 0, _ => .more
  | k + 1, p =>
    if p = [] ∨ p.head? = some ')' then .ok ([], p)
    else
      let (n, r) := name (skip .blank p)
      if n = [] ∧ r.head? ≠ some ',' then .ok ([], r)
      else if 32 ≤ n.length then .ub
      else
        let (ty, r) := name (skip .blank r)
        match cols k (eat ',' (skip .blank r)) with
        | .ok (cs, r) => .ok ((n, isText ty) :: cs, r)
        | .exit => .exit
        | .ub => .ub
        | .more => .more

/-- A member of the struct of a row.  /repo/plugins/sql.c:184-196. -/
def member (c : Str × Bool) : Str :=
  "    ".toList ++ (if c.2 then "const char*".toList else "int".toList) ++ " ".toList ++ c.1 ++ ";\n".toList

/-- The declarations of a table.  /repo/plugins/sql.c:155,196,215-217. -/
def declText (t : Str) (cs : Cols) : Str :=
  "typedef struct {\n".toList ++ (cs.map member).flatten ++ "} Row_".toList ++ t ++ ";\nstatic Row_".toList ++ t ++
    " table_".toList ++ t ++ "[128];\nstatic int count_".toList ++ t ++ " = 0;\n".toList

/-- `parse_create_table`: what is written, the table, and what is left.  /repo/plugins/sql.c:126-218. -/
def create (k : Nat) (p : Str) : Out (Str × (Str × Cols) × Str) :=
  let (t, r) := name (skip .blank p)
  if 64 ≤ t.length then .ub
  else
    match skip .blank r with
    | '(' :: r =>
      match cols k (skip .blank r) with
      | .ok (cs, r) => .ok (declText t cs, (t, cs), eat ';' (skip .blank (eat ')' r)))
      | .exit => .exit
      | .ub => .ub
      | .more => .more
    | _ => .exit

/-- The rest of a string behind its first quotation mark: its text with the last one, and what is left.
A backslash at the end of the text is stepped over together with the NUL.
/repo/plugins/sql.c:259-274. -/
def string : Str → Out (Str × Str)
  | [] => .ok ([], [])
  | '"' :: r => .ok (['"'], r)
  | ['\\'] => .ub
  | '\\' :: c :: r =>
    match string r with
    | .ok (s, r) => .ok ('\\' :: c :: s, r)
    | .exit => .exit
    | .ub => .ub
    | .more => .more
  | c :: r =>
    match string r with
    | .ok (s, r) => .ok (c :: s, r)
    | .exit => .exit
    | .ub => .ub
    | .more => .more

/-- The text of a value and what is left.  /repo/plugins/sql.c:257-282. -/
def value (p : Str) : Out (Str × Str) :=
  match p with
  | '"' :: r =>
    match string r with
    | .ok (s, r) => .ok ('"' :: s, r)
    | .exit => .exit
    | .ub => .ub
    | .more => .more
  | p => .ok (p.takeWhile (fun c => c ≠ ',' && c ≠ ')'), p.dropWhile (fun c => c ≠ ',' && c ≠ ')'))

/-- The loop over the values: what is written, and what is left.  /repo/plugins/sql.c:254-290. -/
def vals : Nat → Str → Out (Str × Str)
  | 0, _ => .more
  | k + 1, p =>
    if p = [] ∨ p.head? = some ')' then .ok ([], p)
    else
      match value (skip .blank p) with
      | .ok (v, r) =>
        let r := skip .blank r
        match vals k (eat ',' r) with
        | .ok (s, r') => .ok (v ++ (if r.head? = some ',' then ", ".toList else []) ++ s, r')
        | .exit => .exit
        | .ub => .ub
        | .more => .more
      | .exit => .exit
      | .ub => .ub
      | .more => .more

/-- The statement that adds a row.  /repo/plugins/sql.c:251-252,301-303. -/
def insertText (t vs : Str) : Str :=
  "if (count_".toList ++ t ++ " < 128) {\n    table_".toList ++ t ++ "[count_".toList ++ t ++ "] = (Row_".toList ++ t ++
    "){ ".toList ++ vs ++ " };\n    count_".toList ++ t ++ "++;\n}\n".toList

/-- `parse_insert`.  /repo/plugins/sql.c:220-304. -/
def insert (k : Nat) (p : Str) : Out (Str × Str) :=
  let p := skip .blank p
  let (t, r) := name (skip .blank ((kw "INTO".toList p).getD p))
  if 64 ≤ t.length then .ub
  else
    match kw "VALUES".toList (skip .blank r) with
    | none => .exit
    | some r =>
      match vals k (eat '(' (skip .blank r)) with
      | .ok (s, r) => .ok (insertText t s, eat ';' (skip .blank (eat ')' r)))
      | .exit => .exit
      | .ub => .ub
      | .more => .more

/-- The format of the columns.  /repo/plugins/sql.c:344-362. -/
def format : Cols → Str
  | [] => []
  | [c] => if c.2 then "%s".toList else "%d".toList
  | c :: cs => (if c.2 then "%s".toList else "%d".toList) ++ ' ' :: format cs

/-- The arguments.  /repo/plugins/sql.c:365-371. -/
def argText (t : Str) (c : Str × Bool) : Str := ", table_".toList ++ t ++ "[_i].".toList ++ c.1

/-- The loop that prints the rows.  /repo/plugins/sql.c:341-374. -/
def selectText (t : Str) (cs : Cols) : Str :=
  "for(int _i=0; _i<count_".toList ++ t ++ "; _i++) {\n    printf(\"".toList ++ format cs ++ "\\n\"".toList ++
    (cs.map (argText t)).flatten ++ ");\n}\n".toList

/-- `parse_select`.  /repo/plugins/sql.c:306-375. -/
def select (ts : Tables) (p : Str) : Out (Str × Str) :=
  let p := skip .blank p
  match kw "FROM".toList (skip .blank ((kw "*".toList p).getD p)) with
  | none => .exit
  | some r =>
    let (t, r) := name (skip .blank r)
    if 64 ≤ t.length then .ub
    else
      match ts.find? (·.1 = t) with
      | none => .exit
      | some (_, cs) => .ok (selectText t cs, eat ';' (skip .blank r))

/-- The loop over the statements: what is written, and the tables.  /repo/plugins/sql.c:384-410. -/
def stmts : Nat → Tables → Str → Out (Str × Tables)
  | 0, _, _ => .more
  | k + 1, ts, p =>
    let p := skip .blank p
    match p with
    | [] => .ok ([], ts)
    | _ :: rest =>
      match kw "CREATE".toList p with
      | some r =>
        let r := skip .blank r
        match create k ((kw "TABLE".toList r).getD r) with
        | .ok (a, t, r) =>
          match stmts k (t :: ts) r with
          | .ok (b, ts) => .ok (a ++ b, ts)
          | .exit => .exit
          | .ub => .ub
          | .more => .more
        | .exit => .exit
        | .ub => .ub
        | .more => .more
      | none =>
        match kw "INSERT".toList p with
        | some r =>
          match insert k r with
          | .ok (a, r) =>
            match stmts k ts r with
            | .ok (b, ts) => .ok (a ++ b, ts)
            | .exit => .exit
            | .ub => .ub
            | .more => .more
          | .exit => .exit
          | .ub => .ub
          | .more => .more
        | none =>
          match kw "SELECT".toList p with
          | some r =>
            match select ts r with
            | .ok (a, r) =>
              match stmts k ts r with
              | .ok (b, ts) => .ok (a ++ b, ts)
              | .exit => .exit
              | .ub => .ub
              | .more => .more
            | .exit => .exit
            | .ub => .ub
            | .more => .more
          | none => stmts k ts rest

/-- `sql_transpile`.  /repo/plugins/sql.c:377-413. -/
def transpile (ts : Tables) (p : Str) : Out (Str × Tables) :=
  match stmts (p.length + 1) ts p with
  | .ok (s, ts) => .ok ("({\n".toList ++ s ++ "0; })".toList, ts)
  | .exit => .exit
  | .ub => .ub
  | .more => .more

/-! ## Specification -/

namespace Spec

/-! ### Text of SQL -/

/-- Blanks and comments. -/
inductive Gap : Str → Prop
  | nil : Gap []
  | blank {c r} : isspace c = true → Gap r → Gap (c :: r)
  | line {s r} : '\n' ∉ s → Gap r → Gap ('/' :: '/' :: (s ++ '\n' :: r))
  | block {s r} : (∀ a b, s ≠ a ++ '*' :: '/' :: b) → Gap r →
      Gap ('/' :: '*' :: (s ++ '*' :: '/' :: r))

/-- At least one. -/
def Gap1 (s : Str) : Prop := Gap s ∧ s ≠ []

/-- A word in any case. -/
def Kw (k s : Str) : Prop := s.map upper = k

/-- A name. -/
def Name (s : Str) : Prop := s ≠ [] ∧ ∀ c ∈ s, word c = true

/-- A value: a string by its text between the quotation marks, or another expression of C. -/
inductive Val where
  | lit (s : Str)
  | expr (s : Str)

/-- The statements. -/
inductive Stmt where
  | create (t : Str) (cs : Cols)
  | insert (t : Str) (vs : List Val)
  | select (t : Str)

/-- The text between the marks of a string. -/
inductive Lit : Str → Prop
  | nil : Lit []
  | char {c s} : c ≠ '"' → c ≠ '\\' → Lit s → Lit (c :: s)
  | esc {c s} : Lit s → Lit ('\\' :: c :: s)

/-- An expression: it begins with a character that begins no blank, comment or string, and has no comma and
no closing parenthesis. -/
def Expr (s : Str) : Prop :=
  (∃ c r, s = c :: r ∧ isspace c = false ∧ c ≠ '/' ∧ c ≠ '"') ∧ ∀ c ∈ s, c ≠ ',' ∧ c ≠ ')'

/-- The text of a value. -/
inductive ValSrc : Val → Str → Prop
  | lit {s g} : Lit s → Gap g → ValSrc (.lit s) ('"' :: (s ++ '"' :: g))
  | expr {s} : Expr s → ValSrc (.expr s) s

/-- The text of a type. -/
inductive TypeSrc : Bool → Str → Prop
  | text {s} : Kw "TEXT".toList s → TypeSrc true s
  | string {s} : Kw "STRING".toList s → TypeSrc true s
  | int {s} : Kw "INT".toList s → TypeSrc false s
  | integer {s} : Kw "INTEGER".toList s → TypeSrc false s

/-- The columns, with what closes them. -/
inductive ColsSrc : Cols → Str → Prop
  | one {g1 n g2 ty g3 b} : Gap g1 → Name n → n.length < 32 → Gap1 g2 → TypeSrc b ty → Gap g3 →
      ColsSrc [(n, b)] (g1 ++ (n ++ (g2 ++ (ty ++ (g3 ++ [')'])))))
  | cons {g1 n g2 ty g3 b cs s} : Gap g1 → Name n → n.length < 32 → Gap1 g2 → TypeSrc b ty → Gap g3 →
      ColsSrc cs s → ColsSrc ((n, b) :: cs) (g1 ++ (n ++ (g2 ++ (ty ++ (g3 ++ ',' :: s)))))

/-- The values, with what closes them. -/
inductive ValsSrc : List Val → Str → Prop
  | one {g v s} : Gap g → ValSrc v s → ValsSrc [v] (g ++ (s ++ [')']))
  | cons {g v s vs r} : Gap g → ValSrc v s → ValsSrc vs r → ValsSrc (v :: vs) (g ++ (s ++ ',' :: r))

/-- A statement. -/
inductive StmtSrc : Stmt → Str → Prop
  | create {k1 g1 k2 g2 t g3 cs s g4} : Kw "CREATE".toList k1 → Gap1 g1 → Kw "TABLE".toList k2 → Gap1 g2 → Name t →
      t.length < 64 → Gap g3 → ColsSrc cs s → Gap g4 →
      StmtSrc (.create t cs) (k1 ++ (g1 ++ (k2 ++ (g2 ++ (t ++ (g3 ++ '(' :: (s ++ (g4 ++ [';']))))))))
  | insert {k1 g1 k2 g2 t g3 k3 g4 vs s g5} : Kw "INSERT".toList k1 → Gap1 g1 → Kw "INTO".toList k2 → Gap1 g2 →
      Name t → t.length < 64 → Gap1 g3 → Kw "VALUES".toList k3 → Gap g4 → ValsSrc vs s → Gap g5 →
      StmtSrc (.insert t vs)
        (k1 ++ (g1 ++ (k2 ++ (g2 ++ (t ++ (g3 ++ (k3 ++ (g4 ++ '(' :: (s ++ (g5 ++ [';']))))))))))
  | select {k1 g1 g2 k2 g3 t g4} : Kw "SELECT".toList k1 → Gap1 g1 → Gap1 g2 → Kw "FROM".toList k2 → Gap1 g3 →
      Name t → t.length < 64 → Gap g4 →
      StmtSrc (.select t) (k1 ++ (g1 ++ '*' :: (g2 ++ (k2 ++ (g3 ++ (t ++ (g4 ++ [';'])))))))

/-- A block. -/
inductive BlockSrc : List Stmt → Str → Prop
  | nil {g} : Gap g → BlockSrc [] g
  | cons {g st s p r} : Gap g → StmtSrc st s → BlockSrc p r → BlockSrc (st :: p) (g ++ (s ++ r))

/-! ### Meaning of SQL -/

/-- Values of columns. -/
inductive V where
  | int (i : Int)
  | str (s : Str)
  deriving DecidableEq, Repr

/-- What the expressions of C and the strings stand for. -/
structure Den where
  int : Str → Int
  lit : Str → Str

/-- The value of a value. -/
def Den.val (d : Den) : Val → V
  | .lit s => .str (d.lit s)
  | .expr s => .int (d.int s)

/-- Whether a value is one for a column. -/
def fits : Val → Bool → Bool
  | .lit _, b => b
  | .expr _, b => !b

/-- A row for the columns. -/
def typed : List Val → Cols → Bool
  | [], [] => true
  | v :: vs, c :: cs => fits v c.2 && typed vs cs
  | _, _ => false

/-- The decimal digits of a number, and a string as it is. -/
def V.show : V → Str
  | .int i => (toString i).toList
  | .str s => s

/-- A row on a line. -/
def line : List V → Str
  | [] => ['\n']
  | [v] => v.show ++ ['\n']
  | v :: vs => v.show ++ ' ' :: line vs

/-- The tables with their rows. -/
abbrev Db := Str → Option (Cols × List (List V))

/-- A change at a name. -/
def upd {α : Type} (f : Str → α) (t : Str) (a : α) : Str → α := fun x => if x = t then a else f x

/-- A statement of SQL: `none` if it is none that makes sense. -/
def exec (d : Den) (σ : Db) : Stmt → Option (Db × Str)
  | .create t cs =>
    if (σ t).isSome = false ∧ (cs.map (·.1)).Nodup then some (upd σ t (some (cs, [])), []) else none
  | .insert t vs =>
    match σ t with
    | none => none
    | some (cs, rows) =>
      if typed vs cs then some (upd σ t (some (cs, rows ++ [vs.map d.val])), []) else none
  | .select t =>
    match σ t with
    | none => none
    | some (_, rows) => some (σ, (rows.map line).flatten)

/-- A block. -/
def run (d : Den) (σ : Db) : List Stmt → Option (Db × Str)
  | [] => some (σ, [])
  | s :: p =>
    match exec d σ s with
    | none => none
    | some (σ, a) =>
      match run d σ p with
      | none => none
      | some (σ, b) => some (σ, a ++ b)

/-- How often a block inserts into a table. -/
def inserts (t : Str) : List Stmt → Nat
  | [] => 0
  | .insert u _ :: p => (if u = t then 1 else 0) + inserts t p
  | _ :: p => inserts t p

/-! ### The C that is written -/

/-- The statements of C that are written. -/
inductive CS where
  | decl (t : Str) (cs : Cols)
  | add (t : Str) (vs : List Val)
  | loop (t : Str) (cs : Cols)

/-- The text of a value: that of a string is its own, and blanks do not matter. -/
def Val.text : Val → Str
  | .lit s => '"' :: (s ++ ['"'])
  | .expr s => s

/-- The values with commas between them. -/
def commas : List Val → Str
  | [] => []
  | [v] => v.text
  | v :: vs => v.text ++ ", ".toList ++ commas vs

/-- The type of C for a column, and its conversion. -/
def ctype (b : Bool) : Str := if b then "const char*".toList else "int".toList
def spec (b : Bool) : Str := if b then "%s".toList else "%d".toList

/-- The text of a declaration. -/
def declC (t : Str) (cs : Cols) : Str :=
  ["typedef struct {\n".toList, cs.flatMap fun c => "    ".toList ++ ctype c.2 ++ ' ' :: c.1 ++ ";\n".toList,
    "} Row_".toList, t, ";\nstatic Row_".toList, t, " table_".toList, t, "[128];\nstatic int count_".toList, t,
    " = 0;\n".toList].flatten

/-- The text of an assignment. -/
def addC (t : Str) (vs : List Val) : Str :=
  ["if (count_".toList, t, " < 128) {\n    table_".toList, t, "[count_".toList, t, "] = (Row_".toList, t, "){ ".toList,
    commas vs, " };\n    count_".toList, t, "++;\n}\n".toList].flatten

/-- The text of a loop. -/
def loopC (t : Str) (cs : Cols) : Str :=
  ["for(int _i=0; _i<count_".toList, t, "; _i++) {\n    printf(\"".toList,
    [' '].intercalate (cs.map fun c => spec c.2), "\\n\"".toList,
    cs.flatMap fun c => ", table_".toList ++ t ++ "[_i].".toList ++ c.1, ");\n}\n".toList].flatten

/-- The text of a statement. -/
def CS.text : CS → Str
  | .decl t cs => declC t cs
  | .add t vs => addC t vs
  | .loop t cs => loopC t cs

/-- What the variables of C hold: the types in scope, and the rows, which are static. -/
structure C where
  scope : Str → Option Cols
  rows : Str → List (List V)

/-- The value of a member that is not given: zero, and no string for a pointer that is null. -/
def zero : Bool → Option V
  | false => some (.int 0)
  | true => none

/-- The members of a row, those that are not given zero: `none` if it is no C. -/
def init (d : Den) : List Val → Cols → Option (List V)
  | [], [] => some []
  | [], c :: cs => do let z ← zero c.2; let r ← init d [] cs; some (z :: r)
  | v :: vs, c :: cs => do
    if fits v c.2 then
      let r ← init d vs cs
      some (d.val v :: r)
    else none
  | _ :: _, [] => none

/-- The member of a row by its name. -/
def member (cs : Cols) (row : List V) (n : Str) : Option V :=
  match cs, row with
  | c :: cs, v :: row => if c.1 = n then some v else member cs row n
  | _, _ => none

/-- One conversion: `%s` of a string and `%d` of a number. -/
def conv : Bool → V → Option Str
  | true, .str s => some s
  | false, .int i => some (toString i).toList
  | _, _ => none

/-- `printf` of a row by the columns of the loop: `none` if it is undefined. -/
def printRow (decl : Cols) (row : List V) : Cols → Option Str
  | [] => some ['\n']
  | [c] => do let v ← member decl row c.1; let s ← conv c.2 v; some (s ++ ['\n'])
  | c :: cs => do
    let v ← member decl row c.1
    let s ← conv c.2 v
    let r ← printRow decl row cs
    some (s ++ ' ' :: r)

/-- All rows. -/
def printRows (decl cs : Cols) : List (List V) → Option Str
  | [] => some []
  | row :: rows => do
    let a ← printRow decl row cs
    let b ← printRows decl cs rows
    some (a ++ b)

/-- A statement of C: `none` if it does not compile or is undefined. -/
def CS.exec (d : Den) (σ : C) : CS → Option (C × Str)
  | .decl t cs =>
    if (σ.scope t).isSome = false ∧ (cs.map (·.1)).Nodup then some ({ σ with scope := upd σ.scope t (some cs) }, [])
    else none
  | .add t vs =>
    match σ.scope t with
    | none => none
    | some cs =>
      match init d vs cs with
      | none => none
      | some row =>
        if (σ.rows t).length < 128 then some ({ σ with rows := upd σ.rows t (σ.rows t ++ [row]) }, [])
        else some (σ, [])
  | .loop t cs =>
    match σ.scope t with
    | none => none
    | some dc =>
      match printRows dc cs (σ.rows t) with
      | none => none
      | some s => some (σ, s)

/-- The statements of a block in turn. -/
def runC (d : Den) (σ : C) : List CS → Option (C × Str)
  | [] => some (σ, [])
  | s :: p =>
    match s.exec d σ with
    | none => none
    | some (σ, a) =>
      match runC d σ p with
      | none => none
      | some (σ, b) => some (σ, a ++ b)

/-- The C a block is to be written as, with the tables created so far. -/
def compile (ts : Tables) : List Stmt → Option (List CS × Tables)
  | [] => some ([], ts)
  | .create t cs :: p => do
    let (q, ts) ← compile ((t, cs) :: ts) p
    some (.decl t cs :: q, ts)
  | .insert t vs :: p => do
    let (q, ts) ← compile ts p
    some (.add t vs :: q, ts)
  | .select t :: p =>
    match ts.find? (·.1 = t) with
    | none => none
    | some (_, cs) => do
      let (q, ts) ← compile ts p
      some (.loop t cs :: q, ts)

end Spec

end Verif.Sql
