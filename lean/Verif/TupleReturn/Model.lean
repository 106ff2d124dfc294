import Verif.Basic

/-!
# Returned tuples

In a function whose return type is a tuple, `return (a, b);` is read as a literal of that type (`parse_return`, /repo/src/parser/parser_stmt.c:1023-1103): the tokens are
scanned for a comma between the outer parentheses, and `parse_tuple_literal` (/repo/src/parser/parser_type.c:1041-1103) cuts the source at the commas.  The return type is in
the global variable `curr_func_ret`, set and cleared by `parse_function` (/repo/src/parser/parser_decl.c:127-128, 196).  In all other cases the value is read by
`parse_expression`, which guesses the types of the elements and loses values (unit `Tuple`).

Simplified: tokens other than parentheses, commas and semicolons are words; an element is its tokens, its text is in unit `Tuple`; of a body only `return` statements, loops over
arrays and lambdas are kept; `return` in `defer` is left out (1027-1030).
-/

namespace Verif.TupleReturn

/-- The tokens that `parse_return` and `parse_tuple_literal` look at (/repo/src/zprep.h:28-85); the end of the list is `TOK_EOF`. -/
inductive Tok where
  | lp
  | rp
  | comma
  | semi
  | w (s : String)
  deriving DecidableEq, Repr

/-- The scan for a comma at depth 1, behind the first `(` (/repo/src/parser/parser_stmt.c:1046-1076); `depth` does not go below 1 before the loop is left. -/
def scan : Nat → List Tok → Bool
  | _, [] => false
  | _, .semi :: _ => false
  | d, .lp :: r => scan (d + 1) r
  | d, .rp :: r => if d - 1 = 0 then false else scan (d - 1) r
  | d, .comma :: r => if d = 1 then true else scan d r
  | d, .w _ :: r => scan d r

/-- One element of a literal and what is behind it (/repo/src/parser/parser_type.c:1063-1085). -/
def takeElem : Nat → List Tok → List Tok × List Tok
  | _, [] => ([], [])
  | 0, .comma :: r => ([], .comma :: r)
  | 0, .rp :: r => ([], .rp :: r)
  | d, .lp :: r => let x := takeElem (d + 1) r; (.lp :: x.1, x.2)
  | d + 1, .rp :: r => let x := takeElem d r; (.rp :: x.1, x.2)
  | d, t :: r => let x := takeElem d r; (t :: x.1, x.2)

/-- The loop of `parse_tuple_literal` behind the first `(`, at most `n` times: the elements and the tokens behind the literal
(/repo/src/parser/parser_type.c:1049-1097).  It is not left at the end of the file. -/
def elems : Nat → List Tok → Option (List (List Tok) × List Tok)
  | 0, _ => none
  | n + 1, ts =>
    match ts with
    | .rp :: r => some ([], r)
    | .comma :: r => elems n r
    | ts => (elems n (takeElem 0 ts).2).map fun x => ((takeElem 0 ts).1 :: x.1, x.2)

/-- What becomes of a `return`: a literal of the type `tn` with these elements and the tokens that are left, the tokens given to `parse_expression` or to the test for
`return;`, or a compiler that does not stop (/repo/src/parser/parser_stmt.c:1078-1097). -/
inductive Out where
  | typed (tn : String) (es : List (List Tok)) (rest : List Tok)
  | expr (ts : List Tok)
  | hang
  deriving DecidableEq, Repr

/-- `strncmp(curr_func_ret, "Tuple_", 6) == 0` (/repo/src/parser/parser_stmt.c:1037) -/
def isTupleName (t : String) : Bool := "Tuple_".toList.isPrefixOf t.toList

/-- `parse_return` for the tokens behind `return` (/repo/src/parser/parser_stmt.c:1035-1097); that a loop of more rounds than there are tokens does not end is
`elems_fuel`. -/
def parseReturn (cur : Option String) (ts : List Tok) : Out :=
  match cur, ts with
  | some t, .lp :: r =>
    if isTupleName t && scan 1 r then
      match elems (r.length + 1) r with
      | some (es, rest) => .typed t es rest
      | none => .hang
    else .expr ts
  | _, ts => .expr ts

/-- A returned value as it is meant: a tuple literal or another expression. -/
inductive Val where
  | tuple (es : List (List Tok))
  | one (e : List Tok)
  deriving DecidableEq, Repr

/-- elements with commas between them -/
def sep : List (List Tok) → List Tok
  | [] => []
  | [e] => e
  | e :: es => e ++ .comma :: sep es

/-- the source text of a value and the semicolon -/
def text : Val → List Tok
  | .tuple es => .lp :: (sep es ++ [.rp, .semi])
  | .one e => e ++ [.semi]

/-- The body of a function: `return v;`, a loop over an array, a lambda with its return type and body, or nothing. -/
inductive Body where
  | done
  | ret (v : Val) (r : Body)
  | loop (r : Body)
  | lam (t : String) (b : Body) (r : Body)
  deriving DecidableEq, Repr

/-- `curr_func_ret` (/repo/src/parser/parser_stmt.c:16) and whether there is the template `Slice` (/repo/src/parser/parser_stmt.c:29-37) -/
structure St where
  cur : Option String
  slice : Bool
  deriving DecidableEq, Repr

/-- The statements of a body.  The first loop over an array parses `std/slice.zc` (`auto_import_std_slice`, /repo/src/parser/parser_stmt.c:26-129), whose functions leave
`curr_func_ret` empty (/repo/src/parser/parser_decl.c:196).  A lambda does not set `curr_func_ret` (`parse_lambda`, /repo/src/parser/parser_expr.c:805-967). -/
def run : Body → St → St × List Out
  | .done, s => (s, [])
  | .ret v r, s =>
    let x := run r s
    (x.1, parseReturn s.cur (text v) :: x.2)
  | .loop r, s => run r (if s.slice then s else ⟨none, true⟩)
  | .lam _ b r, s =>
    let x := run b s
    let y := run r x.1
    (y.1, x.2 ++ y.2)

/-- `parse_function` for a list of functions with their return types (/repo/src/parser/parser_decl.c:127-196): what becomes of the `return`s of each. -/
def parseAll : List (String × Body) → St → List (List Out)
  | [], _ => []
  | (t, b) :: fs, s =>
    let x := run b { s with cur := some t }
    x.2 :: parseAll fs { x.1 with cur := none }

namespace Spec

/-- Tokens with matching parentheses. -/
inductive Balanced : List Tok → Prop where
  | nil : Balanced []
  | word (s : String) {r : List Tok} : Balanced r → Balanced (.w s :: r)
  | comma {r : List Tok} : Balanced r → Balanced (.comma :: r)
  | paren {a r : List Tok} : Balanced a → Balanced r → Balanced (.lp :: (a ++ .rp :: r))

/-- Tokens with matching parentheses and all commas in parentheses. -/
inductive Item : List Tok → Prop where
  | nil : Item []
  | word (s : String) {r : List Tok} : Item r → Item (.w s :: r)
  | paren {a r : List Tok} : Balanced a → Item r → Item (.lp :: (a ++ .rp :: r))

/-- Values that are meant here: tuples of at least two elements; other expressions may begin with something in parentheses that is not a tuple. -/
def Plain : Val → Prop
  | .tuple es => 2 ≤ es.length ∧ ∀ e ∈ es, e ≠ [] ∧ Item e
  | .one e => e = [] ∨ (∃ s r, e = .w s :: r) ∨ ∃ a r, e = .lp :: (a ++ .rp :: r) ∧ Item a

/-- a type of tuples -/
def IsTuple (t : String) : Prop := ∃ r, t.toList = 'T' :: 'u' :: 'p' :: 'l' :: 'e' :: '_' :: r

instance (t : String) : Decidable (IsTuple t) :=
  match h : t.toList with
  | 'T' :: 'u' :: 'p' :: 'l' :: 'e' :: '_' :: r => .isTrue ⟨r, h⟩
  | l =>
    if hl : "Tuple_".toList <+: l then
      .isTrue (by obtain ⟨r, hr⟩ := hl; exact ⟨r, by rw [h, ← hr]; rfl⟩)
    else .isFalse (by rintro ⟨r, hr⟩; exact hl ⟨r, by rw [← h, hr]; rfl⟩)

/-- What is to become of the `return`s of a function with the return type `t`: tuples get the type of the function or lambda they are in. -/
def expected (t : String) : Body → List Out
  | .done => []
  | .ret (.tuple es) r => (if IsTuple t then .typed t es [.semi] else .expr (text (.tuple es))) :: expected t r
  | .ret (.one e) r => .expr (e ++ [.semi]) :: expected t r
  | .loop r => expected t r
  | .lam u b r => expected u b ++ expected t r

/-- Bodies for which it is so, in a function with return type `f` and, if this is in a lambda, a lambda with return type `t`; `sl`: `std/slice.zc` is imported.  A tuple is
returned from a lambda only if its type is that of the function or none of the two is a tuple; there are no loops over arrays in functions that return a tuple unless
`std/slice.zc` is imported. -/
def Tame (sl : Bool) (f : String) : String → Body → Prop
  | _, .done => True
  | t, .ret (.tuple es) r => Plain (.tuple es) ∧ (f = t ∨ (¬ IsTuple f ∧ ¬ IsTuple t)) ∧ Tame sl f t r
  | t, .ret (.one e) r => Plain (.one e) ∧ Tame sl f t r
  | t, .loop r => (sl = true ∨ ¬ IsTuple f) ∧ Tame sl f t r
  | t, .lam u b r => Tame sl f u b ∧ Tame sl f t r

end Spec

end Verif.TupleReturn
