/-!
# Range loops

Transcription of the range part of `parse_for` (/repo/src/parser/parser_stmt.c:1189-1266) and of
`NODE_FOR_RANGE` in `codegen_node_single` (/repo/src/codegen/codegen_stmt.c:1328-1381): the
emitted C loop is

    for (ZC_AUTO i = start; i < end; i += step) body

with `<=` for `..=`, with `>`/`>=` when the text of the step starts with `-`, and with `i++`
when there is no step.  `ZC_AUTO` gives `i` the type of `start`
(/repo/src/codegen/codegen_decl.c:95).

The C semantics of the loop is modelled: integer promotions and the usual arithmetic
conversions in the comparison, signed overflow as undefined behaviour.  Simplifications: the
body does not assign the loop variable and does not leave the loop; floating-point bounds
are not modelled.
-/

namespace Verif.ForRange

/-- A C integer type. -/
structure CTy where
  signed : Bool
  bits : Nat
  deriving DecidableEq

/-- `int` -/
def cInt : CTy := ⟨true, 32⟩
/-- `unsigned int` -/
def cUInt : CTy := ⟨false, 32⟩
/-- `size_t` -/
def cSize : CTy := ⟨false, 64⟩
/-- `uint8_t` -/
def cByte : CTy := ⟨false, 8⟩

/-- Smallest value. -/
def CTy.lo (t : CTy) : Int := if t.signed then -(2 ^ (t.bits - 1)) else 0
/-- Largest value. -/
def CTy.hi (t : CTy) : Int := if t.signed then 2 ^ (t.bits - 1) - 1 else 2 ^ t.bits - 1

/-- Being a value of the type. -/
def CTy.has (t : CTy) (x : Int) : Bool := decide (t.lo ≤ x) && decide (x ≤ t.hi)

/-- Conversion modulo `2^bits` (C17 6.3.1.3; for signed targets as gcc, clang and tcc do). -/
def CTy.wrap (t : CTy) (x : Int) : Int :=
  if t.signed then (x + 2 ^ (t.bits - 1)) % 2 ^ t.bits - 2 ^ (t.bits - 1) else x % 2 ^ t.bits

/-- Integer promotion (C17 6.3.1.1). -/
def promote (t : CTy) : CTy := if t.bits < 32 then cInt else t

/-- Usual arithmetic conversions (C17 6.3.1.8). -/
def common (s t : CTy) : CTy :=
  let s := promote s
  let t := promote t
  if s.bits = t.bits then ⟨s.signed && t.signed, s.bits⟩
  else if s.bits < t.bits then t else s

/-- The step as written: none, a number with an optional minus sign, or the name of a variable
with that value (/repo/src/parser/parser_stmt.c:1225-1251). -/
inductive Step where
  | none
  | num (neg : Bool) (n : Nat)
  | var (value : Int)

/-- The amount added. -/
def Step.value : Step → Int
  | .none => 1
  | .num neg n => if neg then -(n : Int) else n
  | .var v => v

/-- The test `step[0] == '-'` (/repo/src/codegen/codegen_stmt.c:1344). -/
def Step.minus : Step → Bool
  | .num neg _ => neg
  | _ => false

/-- The emitted comparison (/repo/src/codegen/codegen_stmt.c:1344-1368), on converted
operands. -/
def test (ti te : CTy) (incl : Bool) (st : Step) (i e : Int) : Bool :=
  let c := common ti te
  let i := c.wrap i
  let e := c.wrap e
  if st.minus then (if incl then decide (i ≥ e) else decide (i > e))
  else (if incl then decide (i ≤ e) else decide (i < e))

/-- `i += step` or `i++` (/repo/src/codegen/codegen_stmt.c:1370-1377); `none` is signed overflow.
Types narrower than `int` are computed in `int` and converted back. -/
def advance (ti : CTy) (st : Step) (i : Int) : Option Int :=
  let x := i + st.value
  if ti.signed && decide (32 ≤ ti.bits) then (if ti.has x then some x else none)
  else some (ti.wrap x)

/-- Outcome of running the loop for a number of rounds. -/
inductive Out (S : Type) where
  | done (s : S)
  | ub
  | more
  deriving DecidableEq

/-- The loop; `more` when the fuel is used up.  `end_` is evaluated in every round. -/
def loop {S : Type} (ti te : CTy) (incl : Bool) (st : Step) (end_ : S → Int) (body : Int → S → S) :
    Nat → Int → S → Out S
  | 0, _, _ => .more
  | fuel + 1, i, s =>
      if test ti te incl st i (end_ s) then
        match advance ti st i with
        | none => .ub
        | some i' => loop ti te incl st end_ body fuel i' (body i s)
      else .done s

namespace Spec

/-- Inside the range in the direction of the step. -/
def inside (incl : Bool) (k b x : Int) : Prop :=
  if k < 0 then (if incl then b ≤ x else b < x) else (if incl then x ≤ b else x < b)

/-- The documented values: `a, a + k, …` while inside the range. -/
def Visits (incl : Bool) (a b k : Int) (xs : List Int) : Prop :=
  (∀ (j : Nat) (h : j < xs.length), xs[j] = a + j * k) ∧ (∀ x ∈ xs, inside incl k b x) ∧
    ¬ inside incl k b (a + xs.length * k)

/-- Running a body on each value in turn. -/
def runAll {S : Type} (body : Int → S → S) (xs : List Int) (s : S) : S :=
  xs.foldl (fun s x => body x s) s

end Spec

end Verif.ForRange
