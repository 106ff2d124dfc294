import Verif.Forth.Model

/-!
# The Lisp plugin (`/repo/plugins/lisp.c`)

The plugin turns s-expressions into C, as text.  The reader is modelled as it is, a pointer being the
text that is left; the texts have no NUL, and characters beyond ASCII are neither blanks nor digits.
Recursion and loops take fuel, and `more` says that it was not enough, so that a loop that does not end is
`more` for all fuel.  What goes to `stderr`, and the `depth` that nothing uses, are left out.

The C that is written is given its meaning in `Spec`, by a syntax of C expressions with their text, and
an evaluator for them that follows the runtime the plugin puts into the program.
-/

namespace Verif.Lisp

open Forth (Str Out isspace)

/-! ## The reader -/

/-- `skip_whitespace`.  /repo/plugins/lisp.c:8-14. -/
def skipWs (p : Str) : Str := p.dropWhile isspace

/-- `isdigit`. -/
def isdigit (c : Char) : Bool := '0' ≤ c && c ≤ '9'

/-- The characters of a symbol.  /repo/plugins/lisp.c:67,88. -/
def symChar (c : Char) : Bool := !isspace c && c ≠ ')' && c ≠ '('

/-- Behind the quotation mark that ends a string; a backslash at the end of the text is stepped over
together with the NUL.  /repo/plugins/lisp.c:49-61. -/
def skipString : Str → Out Str
  | [] => .ok []
  | '"' :: r => .ok r
  | ['\\'] => .ub
  | '\\' :: _ :: r => skipString r
  | _ :: r => skipString r

/-- `parse_atom`: what is written, and what is left.  /repo/plugins/lisp.c:18-72. -/
def atom (p : Str) : Out (Str × Str) :=
  match p with
  | ')' :: _ => .exit
  | '"' :: r => do .ok ("l_nil()".toList, ← skipString r)
  | '-' :: c :: r =>
    if isdigit c then
      .ok ("l_num(".toList ++ ('-' :: (c :: r).takeWhile isdigit) ++ ")".toList, (c :: r).dropWhile isdigit)
    else .ok (p.takeWhile symChar, p.dropWhile symChar)
  | c :: r =>
    if isdigit c then
      .ok ("l_num(".toList ++ (c :: r).takeWhile isdigit ++ ")".toList, (c :: r).dropWhile isdigit)
    else .ok (p.takeWhile symChar, p.dropWhile symChar)
  | [] => .ok ([], [])

/-- Behind the parenthesis that closes the `d`-th open one.  /repo/plugins/lisp.c:126-137. -/
def nested : Nat → Str → Str
  | 0, p => p
  | _ + 1, [] => []
  | d + 1, c :: r => nested (if c = '(' then d + 2 else if c = ')' then d else d + 1) r

theorem dropWhile_length (p : Char → Bool) (s : Str) : (s.dropWhile p).length ≤ s.length := by
  induction s with
  | nil => simp
  | cons c s ih =>
    rw [List.dropWhile_cons]
    split
    · rw [List.length_cons]; omega
    · exact Nat.le_refl _

theorem nested_length (d : Nat) (p : Str) : (nested d p).length ≤ p.length := by
  induction p generalizing d with
  | nil => cases d <;> simp [nested]
  | cons c p ih =>
    cases d with
    | zero => simp [nested]
    | succ d => rw [nested, List.length_cons]; exact Nat.le_succ_of_le (ih _)

/-- The further operands of `+ - * /` are skipped.  The text begins with no blank.
/repo/plugins/lisp.c:120-147. -/
def dropRest (p : Str) : Str :=
  match p with
  | [] => []
  | c :: r =>
    if c = ')' then c :: r
    else if c = '(' then dropRest (skipWs (nested 1 r))
    else dropRest (skipWs (r.dropWhile (fun c => !isspace c && c ≠ ')')))
termination_by p.length
decreasing_by
  · have h1 := nested_length 1 r
    have h2 : (skipWs (nested 1 r)).length ≤ _ := dropWhile_length isspace _
    simp only [List.length_cons]
    omega
  · have h1 := dropWhile_length (fun c => !isspace c && c ≠ ')') r
    have h2 : (skipWs (r.dropWhile (fun c => !isspace c && c ≠ ')'))).length ≤ _ :=
      dropWhile_length isspace _
    simp only [List.length_cons]
    omega

section
-- `ex` is `parse_lisp_expr`
variable (ex : Str → Out (Str × Str))

/-- Two operands.  /repo/plugins/lisp.c:112-118,161-167,172-178. -/
def two (f : Str) (r : Str) : Out (Str × Str) := do
  let (a, r) ← ex (skipWs r)
  let (b, r) ← ex (skipWs r)
  .ok (f ++ "(".toList ++ a ++ ", ".toList ++ b ++ ")".toList, r)

/-- One operand.  /repo/plugins/lisp.c:182-185,189-192. -/
def one (f : Str) (r : Str) : Out (Str × Str) := do
  let (a, r) ← ex (skipWs r)
  .ok (f ++ "(".toList ++ a ++ ")".toList, r)

/-- The statements of a body.  /repo/plugins/lisp.c:307-312,350-355. -/
def stmts : Nat → Str → Out (Str × Str)
  | 0, _ => .more
  | k + 1, p =>
    if p = [] ∨ p.head? = some ')' then .ok ([], p)
    else do
      let (a, r) ← ex p
      let (b, r) ← stmts k (skipWs r)
      .ok (a ++ ";\n".toList ++ b, r)

/-- The arguments of a call.  /repo/plugins/lisp.c:364-374. -/
def args : Nat → Bool → Str → Out (Str × Str)
  | 0, _, _ => .more
  | k + 1, first, p =>
    if p = [] ∨ p.head? = some ')' then .ok ([], p)
    else do
      let (a, r) ← ex p
      let (b, r) ← args k false (skipWs r)
      .ok ((if first then [] else ", ".toList) ++ a ++ b, r)

/-- The bindings of `let`; what is no parenthesis is looked at for ever.
/repo/plugins/lisp.c:269-293. -/
def binds : Nat → Str → Out (Str × Str)
  | 0, _ => .more
  | k + 1, p =>
    match p with
    | [] => .ok ([], [])
    | ')' :: _ => .ok ([], p)
    | '(' :: r => do
      let r := skipWs r
      let v := r.takeWhile (fun c => !isspace c && c ≠ ')')
      let (a, r) ← ex (skipWs (r.dropWhile (fun c => !isspace c && c ≠ ')')))
      let r := skipWs r
      let r := if r.head? = some ')' then r.tail else r
      let (b, r) ← binds k (skipWs r)
      .ok ("LVal ".toList ++ v ++ " = ".toList ++ a ++ ";\n".toList ++ b, r)
    | _ => binds k (skipWs p)

/-- The parameters of a function.  /repo/plugins/lisp.c:330-346. -/
def params : Nat → Bool → Str → Out (Str × Str)
  | 0, _, _ => .more
  | k + 1, first, p =>
    if p = [] ∨ p.head? = some ')' then .ok ([], p)
    else do
      let v := p.takeWhile (fun c => !isspace c && c ≠ ')')
      let (b, r) ← params k false (skipWs (p.dropWhile (fun c => !isspace c && c ≠ ')')))
      .ok ((if first then [] else ", ".toList) ++ "LVal ".toList ++ v ++ b, r)

/-- The string of `print`.  /repo/plugins/lisp.c:208-228. -/
def printString : Str → Str × Str
  | [] => ([], [])
  | '"' :: r => ([], r)
  | '\\' :: c :: r => ('\\' :: c :: (printString r).1, (printString r).2)
  | ['\\'] => (['\\'], [])
  | c :: r => (c :: (printString r).1, (printString r).2)

/-- `print` and `println`.  /repo/plugins/lisp.c:200-237. -/
def print (nl : Bool) (r : Str) : Out (Str × Str) :=
  match skipWs r with
  | '"' :: r =>
    let (t, r) := printString r
    .ok ("printf(\"".toList ++ t ++ (if nl then "\\n".toList else []) ++ "\")".toList, r)
  | r => do
    let (a, r) ← ex r
    .ok ("l_print(".toList ++ a ++ ");".toList ++ (if nl then " printf(\"\\n\");".toList else []), r)

/-- `if`.  /repo/plugins/lisp.c:239-258. -/
def cond (r : Str) : Out (Str × Str) := do
  let (c, r) ← ex (skipWs r)
  let (a, r) ← ex (skipWs r)
  let r := skipWs r
  let (b, r) ← if r.head? = some ')' then .ok ("l_nil()".toList, r) else ex r
  .ok ("(l_truthy(".toList ++ c ++ ") ? ".toList ++ a ++ " : ".toList ++ b ++ ")".toList, r)

/-- `let`.  /repo/plugins/lisp.c:260-314. -/
def letForm (k : Nat) (r : Str) : Out (Str × Str) := do
  let r := skipWs r
  let (d, r) ←
    if r.head? = some '(' then do
      let (d, r) ← binds ex k (skipWs r.tail)
      if r = [] then .exit else .ok (d, r.tail)
    else .ok ([], r)
  let (b, r) ← stmts ex k (skipWs r)
  .ok ("({\n".toList ++ d ++ b ++ "})".toList, r)

/-- `defun`; the parentheses around the parameters are stepped over without a look.
/repo/plugins/lisp.c:316-357. -/
def defun (k : Nat) (r : Str) : Out (Str × Str) := do
  let r := skipWs r
  let name := r.takeWhile (fun c => !isspace c && c ≠ '(')
  let r := skipWs (r.dropWhile (fun c => !isspace c && c ≠ '('))
  if r = [] then .ub
  else do
    let (ps, r) ← params k true (skipWs r.tail)
    if r = [] then .ub
    else do
      let (b, r) ← stmts ex k (skipWs r.tail)
      .ok ("auto LVal ".toList ++ name ++ "(".toList ++ ps ++ ") {\n return ({\n".toList ++ b ++
        "});\n}".toList, r)

/-- The forms, by the word `w` behind the parenthesis, with the text `p` from the word on and `r` behind
it.  /repo/plugins/lisp.c:94-376. -/
def form (k : Nat) (w p r : Str) : Out (Str × Str) :=
  if w = "+".toList ∨ w = "-".toList ∨ w = "*".toList ∨ w = "/".toList then do
    let f := if w = "-".toList then "l_sub".toList else if w = "*".toList then "l_mul".toList
      else if w = "/".toList then "l_div".toList else "l_add".toList
    let (a, r) ← two ex f r
    .ok (a, dropRest (skipWs r))
  else if w = "<".toList then two ex "l_lt".toList r
  else if w = ">".toList then two ex "l_gt".toList r
  else if w.length = 2 ∧ (w.head? = some '=' ∨ w.head? = some '!') then two ex "l_eq".toList r
  else if w = "cons".toList then two ex "l_cons".toList r
  else if w = "car".toList then one ex "l_car".toList r
  else if w = "cdr".toList then one ex "l_cdr".toList r
  else if w = "list".toList then .ok ("l_nil()".toList, r)
  else if p.take 5 = "print".toList then print ex ((p.drop 5).head? = some 'l') r
  else if w = "if".toList then cond ex r
  else if w = "let".toList then letForm ex k r
  else if w = "defun".toList then defun ex k r
  else do
    let (a, r) ← args ex k true (skipWs r)
    .ok (w ++ "(".toList ++ a ++ ")".toList, r)

/-- The rest of the list is stepped over up to the next parenthesis that closes.
/repo/plugins/lisp.c:378-393. -/
def close (r : Str) : Out Str :=
  match r.dropWhile (· ≠ ')') with
  | [] => .exit
  | _ :: r => .ok r

/-- `parse_lisp_list`, behind its parenthesis.  /repo/plugins/lisp.c:74-394. -/
def list (k : Nat) (r : Str) : Out (Str × Str) := do
  let p := skipWs r
  if p = [] then .exit
  else do
    let (a, r) ← form ex k (p.takeWhile symChar) p (p.dropWhile symChar)
    .ok (a, ← close r)

end

/-- `parse_lisp_expr`.  /repo/plugins/lisp.c:396-411. -/
def expr : Nat → Str → Out (Str × Str)
  | 0, _ => .more
  | k + 1, p =>
    match skipWs p with
    | [] => .ok ([], [])
    | '(' :: r => list (expr k) k r
    | p => atom p

/-- The loop over the expressions of a block.  /repo/plugins/lisp.c:468-486. -/
def tops : Nat → Str → Out Str
  | 0, _ => .more
  | k + 1, p =>
    match skipWs p with
    | [] => .ok []
    | ')' :: _ => .exit
    | p => do
      let (a, r) ← expr k p
      let b ← tops k r
      .ok ("    ".toList ++ a ++ ";\n".toList ++ b)

/-- `lisp_transpile`: the text in place of the block.  /repo/plugins/lisp.c:413-488. -/
def transpile (k : Nat) (p : Str) : Out Str := do
  .ok ("({\n".toList ++ (← tops k p) ++ "})\n".toList)

/-- The functions of the runtime, by name.  /repo/plugins/lisp.c:421-461. -/
def runtime : List Str :=
  ["l_num", "l_nil", "l_cons", "l_car", "l_cdr", "l_truthy", "l_add", "l_sub", "l_mul", "l_div", "l_lt",
    "l_print"].map String.toList

/-! ## What programs mean -/

namespace Spec

/-- Values. -/
inductive Val where
  | nil
  | num (n : Int)
  | pair (a d : Val)
  deriving DecidableEq, Repr

/-- Operators of two operands. -/
inductive Bin where
  | add | sub | mul | div | lt | cons
  deriving DecidableEq, Repr

/-- Operators of one operand. -/
inductive Un where
  | car | cdr
  deriving DecidableEq, Repr

/-- Expressions of Lisp.  A number comes with its numeral, a `let` with its names and what they are bound
to. -/
inductive Sx where
  | num (s : Str) (n : Int)
  | nil
  | sym (x : Str)
  | bin (o : Bin) (a b : Sx)
  | un (o : Un) (a : Sx)
  | ite (c a b : Sx)
  | whn (c a : Sx)
  | letb (xs : List Str) (es : List Sx) (b : List Sx)
  | call (f : Str) (as : List Sx)

/-- What stands in a block. -/
inductive Top where
  | defun (f : Str) (ps : List Str) (b : List Sx)
  | print (nl : Bool) (e : Sx)
  | puts (nl : Bool) (t : Str)
  | expr (e : Sx)

def Bin.word : Bin → Str
  | .add => "+".toList
  | .sub => "-".toList
  | .mul => "*".toList
  | .div => "/".toList
  | .lt => "<".toList
  | .cons => "cons".toList

def Un.word : Un → Str
  | .car => "car".toList
  | .cdr => "cdr".toList

/-! ### Source -/

/-- Blanks. -/
def Sp (s : Str) : Prop := ∀ c ∈ s, isspace c = true

/-- At least one blank. -/
def Sp1 (s : Str) : Prop := Sp s ∧ s ≠ []

mutual

/-- The texts of an expression, with any blanks. -/
inductive Src : Sx → Str → Prop
  | num {s n} : Src (.num s n) s
  | nil : Src .nil "nil".toList
  | sym {x} : Src (.sym x) x
  | bin {o a b u v w x s t} : Sp u → Sp1 v → Src a s → Sp1 w → Src b t → Sp x →
      Src (.bin o a b) ('(' :: (u ++ o.word ++ v ++ s ++ w ++ t ++ x ++ [')']))
  | un {o a u v w s} : Sp u → Sp1 v → Src a s → Sp w →
      Src (.un o a) ('(' :: (u ++ o.word ++ v ++ s ++ w ++ [')']))
  | ite {c a b u v w x y s t r} : Sp u → Sp1 v → Src c s → Sp1 w → Src a t → Sp1 x → Src b r → Sp y →
      Src (.ite c a b) ('(' :: (u ++ "if".toList ++ v ++ s ++ w ++ t ++ x ++ r ++ y ++ [')']))
  | whn {c a u v w x s t} : Sp u → Sp1 v → Src c s → Sp1 w → Src a t → Sp x →
      Src (.whn c a) ('(' :: (u ++ "if".toList ++ v ++ s ++ w ++ t ++ x ++ [')']))
  | letb {xs es b u v s t} : Sp u → Sp v → SrcB xs es s → Srcs b t →
      Src (.letb xs es b) ('(' :: (u ++ "let".toList ++ v ++ '(' :: (s ++ ')' :: (t ++ [')']))))
  | call {f as u s} : Sp u → Srcs as s → Src (.call f as) ('(' :: (u ++ f ++ s ++ [')']))

/-- The texts of expressions with blanks before each. -/
inductive Srcs : List Sx → Str → Prop
  | nil {u} : Sp u → Srcs [] u
  | cons {e es u s t} : Sp1 u → Src e s → Srcs es t → Srcs (e :: es) (u ++ s ++ t)

/-- The texts of bindings. -/
inductive SrcB : List Str → List Sx → Str → Prop
  | nil {u} : Sp u → SrcB [] [] u
  | cons {x xs e es u v w y s t} : Sp u → Sp v → Sp1 w → Src e s → Sp y → SrcB xs es t →
      SrcB (x :: xs) (e :: es) (u ++ '(' :: (v ++ x ++ w ++ s ++ y ++ ')' :: t))

end

/-- The texts of parameters. -/
inductive SrcP : List Str → Str → Prop
  | nil {u} : Sp u → SrcP [] u
  | one {x u v} : Sp u → Sp v → SrcP [x] (u ++ x ++ v)
  | cons {x y xs u v s} : Sp u → Sp1 v → SrcP (y :: xs) s → SrcP (x :: y :: xs) (u ++ x ++ v ++ s)

/-- The texts of a statement. -/
inductive SrcT : Top → Str → Prop
  | defun {f ps b u v w s t} : Sp u → Sp1 v → Sp w → SrcP ps s → Srcs b t →
      SrcT (.defun f ps b)
        ('(' :: (u ++ "defun".toList ++ v ++ f ++ w ++ '(' :: (s ++ ')' :: (t ++ [')']))))
  | print {nl e u v w s} : Sp u → Sp1 v → Src e s → Sp w →
      SrcT (.print nl e) ('(' :: (u ++ (if nl then "println".toList else "print".toList) ++ v ++ s ++ w ++ [')']))
  | puts {nl t u v w} : Sp u → Sp1 v → Sp w →
      SrcT (.puts nl t)
        ('(' :: (u ++ (if nl then "println".toList else "print".toList) ++ v ++ '"' :: (t ++ '"' :: (w ++ [')']))))
  | expr {e s} : Src e s → SrcT (.expr e) s

/-- The texts of a block. -/
inductive SrcProg : List Top → Str → Prop
  | nil {u} : Sp u → SrcProg [] u
  | cons {t ts u s r} : Sp u → SrcT t s → SrcProg ts r → (r = [] ∨ ∃ c r', r = c :: r' ∧ isspace c = true) →
      SrcProg (t :: ts) (u ++ s ++ r)

/-! ### Names -/

/-- Words of C, and of the runtime, that are no names. -/
def reserved : List Str :=
  ["auto", "break", "case", "char", "const", "continue", "default", "do", "double", "else", "enum",
    "extern", "float", "for", "goto", "if", "inline", "int", "long", "register", "restrict", "return",
    "short", "signed", "sizeof", "static", "struct", "switch", "typedef", "union", "unsigned", "void",
    "volatile", "while", "nil", "LVal", "LNIL", "LType", "L_NUM", "L_PAIR", "L_NIL", "malloc",
    "printf"].map String.toList

/-- Names for variables and functions: identifiers of C that nothing else is called. -/
def Name (x : Str) : Prop :=
  (∃ c r, x = c :: r ∧ (c.isAlpha = true ∨ c = '_') ∧ ∀ d ∈ r, d.isAlphanum = true ∨ d = '_') ∧
    x ∉ reserved ∧ x.take 2 ≠ "l_".toList

/-- Words of the plugin. -/
def words : List Str := ["cons", "car", "cdr", "list", "if", "let", "defun"].map String.toList

/-- Names for functions. -/
def FName (f : Str) : Prop := Name f ∧ f ∉ words ∧ f.take 5 ≠ "print".toList

/-- `long`. -/
def Range (n : Int) : Prop := -9223372036854775808 ≤ n ∧ n ≤ 9223372036854775807

instance (n : Int) : Decidable (Range n) := inferInstanceAs (Decidable (_ ∧ _))

/-- Decimal numerals, without zeros in front. -/
inductive Numeral : Str → Int → Prop
  | pos {s : Str} {n : Nat} : Forth.Spec.Dec s n → Range n → Numeral s n
  | neg {s : Str} {n : Nat} : Forth.Spec.Dec s n → Range n → Numeral ('-' :: s) (-n)

mutual

/-- The symbols of an expression. -/
def Sx.syms : Sx → List Str
  | .num _ _ => []
  | .nil => []
  | .sym x => [x]
  | .bin _ a b => a.syms ++ b.syms
  | .un _ a => a.syms
  | .ite c a b => c.syms ++ a.syms ++ b.syms
  | .whn c a => c.syms ++ a.syms
  | .letb _ es b => symsL es ++ symsL b
  | .call _ as => symsL as

def symsL : List Sx → List Str
  | [] => []
  | e :: es => e.syms ++ symsL es

end

/-- Expressions over the functions `fs`: names are names, variables are not called like functions, and what
is bound in a `let` does not mention the names of the `let`. -/
inductive Good (fs : List Str) : Sx → Prop
  | num {s n} : Numeral s n → Good fs (.num s n)
  | nil : Good fs .nil
  | sym {x} : Name x → x ∉ fs → Good fs (.sym x)
  | bin {o a b} : Good fs a → Good fs b → Good fs (.bin o a b)
  | un {o a} : Good fs a → Good fs (.un o a)
  | ite {c a b} : Good fs c → Good fs a → Good fs b → Good fs (.ite c a b)
  | whn {c a} : Good fs c → Good fs a → Good fs (.whn c a)
  | letb {xs es b} : (∀ x ∈ xs, Name x ∧ x ∉ fs) → xs.Nodup → (∀ e ∈ es, Good fs e) →
      (∀ e ∈ es, ∀ x ∈ xs, x ∉ e.syms) → (∀ e ∈ b, Good fs e) → Good fs (.letb xs es b)
  | call {f as} : FName f → f ∈ fs → (∀ e ∈ as, Good fs e) → Good fs (.call f as)

/-! ### Lisp -/

/-- A function: its name, its parameters and its body. -/
structure Fn (α : Type) where
  name : Str
  params : List Str
  body : List α

/-- Variables. -/
abbrev Env := Str → Option Val

def Env.set (ρ : Env) (x : Str) (v : Option Val) : Env := fun y => if y = x then v else ρ y

/-- Variables for parameters. -/
def bind : List Str → List Val → Env → Option Env
  | [], [], ρ => some ρ
  | x :: xs, v :: vs, ρ => bind xs vs (ρ.set x (some v))
  | _, _, _ => none

/-- Numbers, as long as they are in range. -/
def num (n : Int) : Option Val := if Range n then some (.num n) else none

/-- The operators: numbers are needed, and nothing is divided by zero. -/
def Bin.app : Bin → Val → Val → Option Val
  | .add, .num a, .num b => num (a + b)
  | .sub, .num a, .num b => num (a - b)
  | .mul, .num a, .num b => num (a * b)
  | .div, .num a, .num b => if b = 0 then none else num (a.tdiv b)
  | .lt, .num a, .num b => some (if a < b then .num 1 else .nil)
  | .cons, a, b => some (.pair a b)
  | _, _, _ => none

/-- `car` and `cdr` of a pair, and of `nil`. -/
def Un.app : Un → Val → Option Val
  | .car, .pair a _ => some a
  | .cdr, .pair _ d => some d
  | _, .nil => some .nil
  | _, _ => none

/-- All values. -/
def vals {α : Type} (g : α → Option Val) : List α → Option (List Val)
  | [] => some []
  | e :: es => do
    let v ← g e
    let vs ← vals g es
    some (v :: vs)

/-- The last value, the others for nothing. -/
def last {α : Type} (g : α → Option Val) : List α → Option Val
  | [] => none
  | [e] => g e
  | e :: e' :: es => do
    let _ ← g e
    last g (e' :: es)

/-- The value of an expression, where the functions are `D`, the latest first.  `none` also says that the
fuel is spent. -/
def ev (D : List (Fn Sx)) : Nat → Env → Sx → Option Val
  | 0, _, _ => none
  | n + 1, ρ, e =>
    match e with
    | .num _ v => some (.num v)
    | .nil => some .nil
    | .sym x => ρ x
    | .bin o a b => do
      let u ← ev D n ρ a
      let v ← ev D n ρ b
      o.app u v
    | .un o a => do
      let u ← ev D n ρ a
      o.app u
    | .ite c a b => do
      let v ← ev D n ρ c
      if v = .nil then ev D n ρ b else ev D n ρ a
    | .whn c a => do
      let v ← ev D n ρ c
      if v = .nil then some .nil else ev D n ρ a
    | .letb xs es b => do
      let vs ← vals (ev D n ρ) es
      let ρ' ← bind xs vs ρ
      last (ev D n ρ') b
    | .call f as => do
      let vs ← vals (ev D n ρ) as
      let d ← D.find? (·.name = f)
      let ρ' ← bind d.params vs (fun _ => none)
      last (ev D n ρ') d.body

/-- A value as text. -/
def Val.text : Val → Str
  | .nil => "nil".toList
  | .num n => Forth.intText n
  | .pair a d => "(".toList ++ a.text ++ " . ".toList ++ d.text ++ ")".toList

/-- The output of a block. -/
def run (n : Nat) : List (Fn Sx) → List Top → Option Str
  | _, [] => some []
  | D, .defun f ps b :: ts => run n (⟨f, ps, b⟩ :: D) ts
  | D, .print nl e :: ts => do
    let v ← ev D n (fun _ => none) e
    let o ← run n D ts
    some (v.text ++ (if nl then ['\n'] else []) ++ o)
  | D, .puts nl t :: ts => do
    let o ← run n D ts
    some (t ++ (if nl then ['\n'] else []) ++ o)
  | D, .expr e :: ts => do
    let _ ← ev D n (fun _ => none) e
    run n D ts

/-- A block over the functions `fs` that are there already: functions are defined once, and before they
are used. -/
inductive GoodProg : List Str → List Top → Prop
  | nil {fs} : GoodProg fs []
  | defun {fs f ps b ts} : FName f → f ∉ fs → (∀ x ∈ ps, Name x ∧ x ∉ f :: fs) → ps.Nodup →
      (∀ e ∈ b, Good (f :: fs) e) → GoodProg (f :: fs) ts → GoodProg fs (.defun f ps b :: ts)
  | print {fs nl e ts} : Good fs e → GoodProg fs ts → GoodProg fs (.print nl e :: ts)
  | puts {fs nl t ts} : (∀ c ∈ t, c ≠ '"' ∧ c ≠ '\\' ∧ c ≠ '%' ∧ c ≠ '\n') → GoodProg fs ts →
      GoodProg fs (.puts nl t :: ts)
  | expr {fs e ts} : Good fs e → GoodProg fs ts → GoodProg fs (.expr e :: ts)

/-! ### C -/

/-- Expressions of C with nested blocks, as GNU C has them. -/
inductive CE where
  | num (s : Str)
  | var (x : Str)
  | call (f : Str) (as : List CE)
  | cond (c a b : CE)
  | block (xs : List Str) (es : List CE) (b : List CE)

/-- A number. -/
def cNum (s : Str) : Str := "l_num(".toList ++ s ++ ")".toList

/-- A call. -/
def cCall (f as : Str) : Str := f ++ "(".toList ++ as ++ ")".toList

/-- A conditional. -/
def cCond (c a b : Str) : Str :=
  "(l_truthy(".toList ++ c ++ ") ? ".toList ++ a ++ " : ".toList ++ b ++ ")".toList

/-- A block. -/
def cBlock (d b : Str) : Str := "({\n".toList ++ d ++ b ++ "})".toList

/-- A declaration. -/
def cDecl (x e : Str) : Str := "LVal ".toList ++ x ++ " = ".toList ++ e ++ ";\n".toList

/-- A statement. -/
def cStmt (e : Str) : Str := e ++ ";\n".toList

/-- A further argument. -/
def cNext (e : Str) : Str := ", ".toList ++ e

mutual

/-- The text of an expression: `l_num(…)`, variables, calls, `(l_truthy(…) ? … : …)`, and blocks that declare
variables. -/
def CE.text : CE → Str
  | .num s => cNum s
  | .var x => x
  | .call f as => cCall f (commas as)
  | .cond c a b => cCond c.text a.text b.text
  | .block xs es b => cBlock (decls es xs) (semis b)

def commas : List CE → Str
  | [] => []
  | e :: es => e.text ++ commasTail es

def commasTail : List CE → Str
  | [] => []
  | e :: es => cNext e.text ++ commasTail es

def semis : List CE → Str
  | [] => []
  | e :: es => cStmt e.text ++ semis es

def decls : List CE → List Str → Str
  | [], _ => []
  | e :: es, xs => cDecl (xs.headD []) e.text ++ decls es xs.tail

end

/-- Statements of C. -/
inductive CS where
  | fn (f : Str) (ps : List Str) (b : List CE)
  | print (nl : Bool) (e : CE)
  | puts (nl : Bool) (t : Str)
  | expr (e : CE)

/-- Parameters. -/
def paramText : Bool → List Str → Str
  | _, [] => []
  | first, x :: xs => (if first then [] else ", ".toList) ++ "LVal ".toList ++ x ++ paramText false xs

/-- The text of a statement. -/
def CS.text : CS → Str
  | .fn f ps b => "auto LVal ".toList ++ f ++ "(".toList ++ paramText true ps ++
      ") {\n return ({\n".toList ++ semis b ++ "});\n}".toList
  | .print nl e => "l_print(".toList ++ e.text ++ ");".toList ++ (if nl then " printf(\"\\n\");".toList else [])
  | .puts nl t => "printf(\"".toList ++ t ++ (if nl then "\\n".toList else []) ++ "\")".toList
  | .expr e => e.text

/-- The text of a block. -/
def blockText (ss : List CS) : Str :=
  "({\n".toList ++ ss.flatMap (fun s => "    ".toList ++ s.text ++ ";\n".toList) ++ "})\n".toList

/-- Functions of the runtime. -/
inductive Prim where
  | nil | cons | car | cdr | add | sub | mul | div | lt
  deriving DecidableEq, Repr

def prims : List (Str × Prim) :=
  [("l_nil".toList, .nil), ("l_cons".toList, .cons), ("l_car".toList, .car), ("l_cdr".toList, .cdr),
    ("l_add".toList, .add), ("l_sub".toList, .sub), ("l_mul".toList, .mul), ("l_div".toList, .div),
    ("l_lt".toList, .lt)]

/-- `(a&&a->type==L_NUM)?a->num:0`. -/
def Val.toNum : Val → Int
  | .num n => n
  | _ => 0

/-- What the runtime does; `none` where `long` overflows.  /repo/plugins/lisp.c:429-454. -/
def Prim.app : Prim → List Val → Option Val
  | .nil, [] => some .nil
  | .cons, [a, b] => some (.pair a b)
  | .car, [.pair a _] => some a
  | .car, [_] => some .nil
  | .cdr, [.pair _ d] => some d
  | .cdr, [_] => some .nil
  | .add, [a, b] => num (a.toNum + b.toNum)
  | .sub, [a, b] => num (a.toNum - b.toNum)
  | .mul, [a, b] => num (a.toNum * b.toNum)
  | .div, [a, b] => if b.toNum = 0 then some (.num 0) else num (a.toNum.tdiv b.toNum)
  | .lt, [a, b] => some (if a.toNum < b.toNum then .num 1 else .nil)
  | _, _ => none

/-- An integer constant of C, maybe with a sign: in octal with a zero in front. -/
def cConst (s : Str) : Option Int :=
  let v : Option Int := match s with
    | '-' :: r => (Forth.magnitude r).map (fun n : Nat => -(n : Int))
    | r => (Forth.magnitude r).map (fun n : Nat => (n : Int))
  v.bind (fun n => if Range n then some n else none)

/-- A function, with what is declared up to its end. -/
def visible (f : Str) : List (Fn CE) → Option (Fn CE × List (Fn CE))
  | [] => none
  | d :: D => if d.name = f then some (d, d :: D) else visible f D

/-- Declarations, one after the other; a variable is in scope in its own initializer, without a value. -/
def declare (g : Env → CE → Option Val) : List Str → List CE → Env → Option Env
  | [], [], ρ => some ρ
  | x :: xs, e :: es, ρ => do
    let v ← g (ρ.set x none) e
    declare g xs es (ρ.set x (some v))
  | _, _, _ => none

/-- The value of an expression, where the functions declared so far are `D`, the latest first.  A
function sees what is declared up to its end.  `none`: there is no value, the program is wrong, or the fuel
is spent. -/
def cev : Nat → List (Fn CE) → Env → CE → Option Val
  | 0, _, _, _ => none
  | n + 1, D, ρ, e =>
    match e with
    | .num s => (cConst s).map .num
    | .var x => if x = "nil".toList then some .nil else ρ x
    | .call f as => do
      let vs ← vals (cev n D ρ) as
      match prims.lookup f with
      | some p => p.app vs
      | none =>
        if (ρ f).isSome then none
        else do
          let (d, D') ← visible f D
          let ρ' ← bind d.params vs (fun _ => none)
          last (cev n D' ρ') d.body
    | .cond c a b => do
      let v ← cev n D ρ c
      if v = .nil then cev n D ρ b else cev n D ρ a
    | .block xs es b => do
      let ρ' ← declare (cev n D) xs es ρ
      last (cev n D ρ') b

/-- The output of statements; `printf` of a text without `%` and backslash.
/repo/plugins/lisp.c:455-461. -/
def crun (n : Nat) : List (Fn CE) → List CS → Option Str
  | _, [] => some []
  | D, .fn f ps b :: ss => crun n (⟨f, ps, b⟩ :: D) ss
  | D, .print nl e :: ss => do
    let v ← cev n D (fun _ => none) e
    let o ← crun n D ss
    some (v.text ++ (if nl then ['\n'] else []) ++ o)
  | D, .puts nl t :: ss =>
    if '%' ∈ t ∨ '\\' ∈ t then none
    else do
      let o ← crun n D ss
      some (t ++ (if nl then ['\n'] else []) ++ o)
  | D, .expr e :: ss => do
    let _ ← cev n D (fun _ => none) e
    crun n D ss

/-! ### From Lisp to C -/

def Bin.fn : Bin → Str
  | .add => "l_add".toList
  | .sub => "l_sub".toList
  | .mul => "l_mul".toList
  | .div => "l_div".toList
  | .lt => "l_lt".toList
  | .cons => "l_cons".toList

def Un.fn : Un → Str
  | .car => "l_car".toList
  | .cdr => "l_cdr".toList

/-- The variable `nil`. -/
def nilVar : CE := .var "nil".toList

/-- `l_nil()`. -/
def nilCall : CE := .call "l_nil".toList []

mutual

/-- The C for an expression. -/
def Sx.c : Sx → CE
  | .num s _ => .num s
  | .nil => nilVar
  | .sym x => .var x
  | .bin o a b => .call o.fn [a.c, b.c]
  | .un o a => .call o.fn [a.c]
  | .ite c a b => .cond c.c a.c b.c
  | .whn c a => .cond c.c a.c nilCall
  | .letb xs es b => .block xs (cs es) (cs b)
  | .call f as => .call f (cs as)

def cs : List Sx → List CE
  | [] => []
  | e :: es => e.c :: cs es

end

def Top.c : Top → CS
  | .defun f ps b => .fn f ps (cs b)
  | .print nl e => .print nl e.c
  | .puts nl t => .puts nl t
  | .expr e => .expr e.c

end Spec

end Verif.Lisp
