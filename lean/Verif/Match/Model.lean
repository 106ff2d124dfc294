/-!
# `match`: pattern texts, emitted conditions and enum tags

Transcription of the pattern part of `parse_match` (/repo/src/parser/parser_stmt.c:182-344),
of `emit_single_pattern_cond`, `emit_pattern_condition` and the arm loop of
`codegen_match_internal` (/repo/src/codegen/codegen_stmt.c:16-147, 193-530), and of the enum
tags (/repo/src/parser/parser_struct.c:1106-1222, /repo/src/codegen/codegen_decl.c:533-583).

Simplifications: emitted C text is kept as a tree of conditions instead of characters;
comparisons are those of mathematical integers; bodies are numbered and only the choice of a
body is modelled; the scrutinee is evaluated once, into `_m`.  Payload bindings, `match self`
and matches used as expressions (same conditions) are not modelled.
-/

namespace Verif.Match

/-- Text. -/
abbrev Txt := List Char

/-- One alternative of a pattern as written: a value token, a range, `_`, or an enum variant
(given by its joined name `Enum_Variant`, /repo/src/parser/parser_stmt.c:224-233). -/
inductive Alt where
  | lit (t : Txt)
  | rng (incl : Bool) (lo hi : Txt)
  | wild
  | variant (n : Txt)

/-- An arm as written: alternatives and, if there is a guard, the outcome of the guard. -/
structure Arm where
  alts : List Alt
  guard : Option Bool := none

/-- The text stored for an alternative (/repo/src/parser/parser_stmt.c:221-251); `..<` is
stored as `..`. -/
def altText : Alt → Txt
  | .lit t => t
  | .rng incl lo hi => lo ++ (if incl then ['.', '.', '='] else ['.', '.']) ++ hi
  | .wild => ['_']
  | .variant n => n

/-- `patterns_buf[1024]` filled with `strcat` (/repo/src/parser/parser_stmt.c:216-258): `none`
when the buffer overflows. -/
def joinBuf : Txt → List Txt → Option Txt
  | acc, [] => some acc
  | acc, t :: r =>
      if (acc ++ '|' :: t).length < 1024 then joinBuf (acc ++ '|' :: t) r else none

/-- The text of a pattern (/repo/src/parser/parser_stmt.c:216-283). -/
def patText : List Alt → Option Txt
  | [] => none
  | a :: r =>
      if (altText a).length < 1024 then joinBuf (altText a) (r.map altText) else none

/-- `strstr`: the text before and after the first occurrence. -/
def strstr (p : Txt) : Txt → Option (Txt × Txt)
  | [] => if p.isPrefixOf [] then some ([], []) else none
  | c :: s =>
      if p.isPrefixOf (c :: s) then some ([], (c :: s).drop p.length)
      else (strstr p s).map fun (a, b) => (c :: a, b)

/-- `strtok_r(_, "|", _)`: the maximal non-empty pieces without `|`; `cur` is the piece being
collected. -/
def strtok : Txt → Txt → List Txt
  | cur, [] => if cur = [] then [] else [cur]
  | cur, c :: s =>
      if c = '|' then (if cur = [] then strtok [] s else cur :: strtok [] s)
      else strtok (cur ++ [c]) s

/-- An emitted condition on `_m`: equality with a text, `strcmp` with a text, the two kinds of
range, the tag, a flag field (`is_some`, `is_ok`), and the constant `1`. -/
inductive Cond where
  | eq (t : Txt)
  | streq (t : Txt)
  | incl (lo hi : Txt)
  | excl (lo hi : Txt)
  | tag (n : Int)
  | flag (arrow : Bool) (neg : Bool)
  | one

/-- `emit_single_pattern_cond` (/repo/src/codegen/codegen_stmt.c:16-82). -/
def emitSingle (pat : Txt) : Cond :=
  match strstr ['.', '.', '='] pat with
  | some (a, b) => .incl a b
  | none =>
      match strstr ['.', '.'] pat with
      | some (a, b) => .excl a b
      | none => if pat.head? = some '"' then .streq pat else .eq pat

/-- The registered variants, last registered first
(/repo/src/parser/parser_utils.c:850-873). -/
abbrev Reg := List (Txt × Int)

/-- `find_enum_variant` (/repo/src/parser/parser_utils.c:860-873). -/
def findVariant : Reg → Txt → Option Int
  | [], _ => none
  | (n, t) :: r, x => if n = x then some t else findVariant r x

/-- One part of a condition (/repo/src/codegen/codegen_stmt.c:107-123, 132-148). -/
def emitPart (reg : Reg) (part : Txt) : Cond :=
  match findVariant reg part with
  | some t => .tag t
  | none => emitSingle part

/-- `emit_pattern_condition` (/repo/src/codegen/codegen_stmt.c:85-150): a disjunction. -/
def emitPattern (reg : Reg) (pat : Txt) : List Cond :=
  if '|' ∈ pat then (strtok [] pat).map (emitPart reg) else [emitPart reg pat]

/-- What the type of the scrutinee is called (/repo/src/codegen/codegen_stmt.c:274-276). -/
inductive Kind where
  | other
  | option
  | result
  deriving DecidableEq

/-- The condition of an arm (/repo/src/codegen/codegen_stmt.c:338-376).  The guard is not
looked at. -/
def emitArm (reg : Reg) (k : Kind) (pat : Txt) : List Cond :=
  if pat = ['_'] then [.one]
  else match k with
    | .option =>
        if pat = "Some".toList then [.flag true false]
        else if pat = "None".toList then [.flag true true]
        else [.one]
    | .result =>
        if pat = "Ok".toList then [.flag true false]
        else if pat = "Err".toList then [.flag true true]
        else [.one]
    | .other => emitPattern reg pat

/-- A variant of an enum declaration: joined name and explicit value. -/
abbrev Decl := List (Txt × Option Int)

/-- Registration of the variants: the running number is registered before an explicit value is
read (/repo/src/parser/parser_struct.c:1184-1218).  The newest comes first. -/
def registerFrom : Int → Decl → Reg → Reg
  | _, [], reg => reg
  | v, (n, none) :: r, reg => registerFrom (v + 1) r ((n, v) :: reg)
  | v, (n, some x) :: r, reg => registerFrom (x + 1) r ((n, v) :: reg)

/-- All variants of one enum. -/
def register (d : Decl) : Reg := registerFrom 0 d []

/-- The tags in the emitted C: `typedef enum { E_A_Tag, E_B_Tag, }` numbers them by position
(/repo/src/codegen/codegen_decl.c:540-548). -/
def cTagFrom : Int → Decl → Txt → Option Int
  | _, [], _ => none
  | i, (n, _) :: r, x => if n = x then some i else cTagFrom (i + 1) r x

/-- The tag stored by the constructor of a variant
(/repo/src/codegen/codegen_decl.c:560-583). -/
def cTag (d : Decl) (x : Txt) : Option Int := cTagFrom 0 d x

/-- A value being matched: an integer, a string, an enum value made with a variant, or an
`Option`/`Result` that is `Some`/`Ok` or not. -/
inductive Val where
  | int (n : Int)
  | str (s : Txt)
  | enm (variant : Txt)
  | opt (full : Bool)

/-- What literal tokens mean in C. -/
structure Den where
  int : Txt → Option Int
  str : Txt → Option Txt

/-- Truth of an emitted condition; `none`: the C program does not compile.  `ptr`: `_m` is a
pointer because some arm binds by reference (/repo/src/codegen/codegen_stmt.c:212-267). -/
def evalC (den : Den) (d : Decl) (ptr : Bool) : Cond → Val → Option Bool
  | .eq t, .int n => (den.int t).map fun a => decide (n = a)
  | .streq t, .str s => (den.str t).map fun a => decide (s = a)
  | .incl lo hi, .int n =>
      (den.int lo).bind fun a => (den.int hi).map fun b => decide (a ≤ n) && decide (n ≤ b)
  | .excl lo hi, .int n =>
      (den.int lo).bind fun a => (den.int hi).map fun b => decide (a ≤ n) && decide (n < b)
  | .tag t, .enm w => (cTag d w).map fun a => decide (a = t)
  | .flag arrow neg, .opt full => if arrow = ptr then some (full != neg) else none
  | .one, _ => some true
  | _, _ => none

/-- `(c1 || c2 || …)`; every part has to compile. -/
def evalOr (den : Den) (d : Decl) (ptr : Bool) (v : Val) : List Cond → Option Bool
  | [] => some false
  | c :: r => (evalC den d ptr c v).bind fun b => (evalOr den d ptr v r).map fun b' => b || b'

/-- The emitted `if … else if …`; the number of the body that runs, if any. -/
def runChain (den : Den) (d : Decl) (ptr : Bool) (v : Val) : Nat → List (List Cond) →
    Option (Option Nat)
  | _, [] => some none
  | i, cs :: r =>
      (evalOr den d ptr v cs).bind fun b =>
        (runChain den d ptr v (i + 1) r).map fun o => if b then some i else o

/-- Outcome of compiling and running a match. -/
inductive Out where
  | overflow
  | noCompile
  | ran (body : Option Nat)
  deriving DecidableEq

/-- The texts of all patterns. -/
def allTexts : List Arm → Option (List Txt)
  | [] => some []
  | a :: r => (patText a.alts).bind fun t => (allTexts r).map (t :: ·)

/-- A match from its arms to the body that runs. -/
def runMatch (den : Den) (d : Decl) (k : Kind) (ptr : Bool) (arms : List Arm) (v : Val) : Out :=
  match allTexts arms with
  | none => .overflow
  | some ts =>
      match runChain den d ptr v 0 (ts.map (emitArm (register d) k)) with
      | none => .noCompile
      | some o => .ran o

namespace Spec

/-- What it means for a value to match an alternative. -/
def matchesAlt (den : Den) : Alt → Val → Prop
  | .lit t, .int n => den.int t = some n
  | .lit t, .str s => den.str t = some s
  | .lit t, .opt full => t = (if full then "Some".toList else "None".toList) ∨
      t = (if full then "Ok".toList else "Err".toList)
  | .rng incl lo hi, .int n =>
      ∃ a b, den.int lo = some a ∧ den.int hi = some b ∧ a ≤ n ∧ (if incl then n ≤ b else n < b)
  | .wild, _ => True
  | .variant n, .enm w => n = w
  | _, _ => False

/-- An arm is right for a value. -/
def matchesArm (den : Den) (a : Arm) (v : Val) : Prop :=
  (∃ x ∈ a.alts, matchesAlt den x v) ∧ a.guard ≠ some false

/-- `i` is the first arm that is right for `v`. -/
def First (den : Den) (arms : List Arm) (v : Val) (i : Nat) : Prop :=
  ∃ a, arms[i]? = some a ∧ matchesArm den a v ∧
    ∀ (j : Nat) (b : Arm), j < i → arms[j]? = some b → ¬ matchesArm den b v

/-! The guard of the partial theorem. -/

/-- No two dots in a row. -/
def noDots : Txt → Bool
  | '.' :: '.' :: _ => false
  | _ :: r => noDots r
  | [] => true

/-- A token that survives the round trip through text. -/
def cleanTok (t : Txt) : Bool :=
  !t.isEmpty && !t.contains '|' && noDots t && (t.head? != some '.') && (t.head? != some '=') &&
    (t.getLast? != some '.') && t != ['_']

/-- The alternative fits the value and the program: literals have a meaning, variants are
declared, literals are not called like variants. -/
def okAlt (den : Den) (d : Decl) : Val → Alt → Bool
  | .int _, .lit t => cleanTok t && (den.int t).isSome && (t.head? != some '"') &&
      d.all (fun p => p.1 != t)
  | .int _, .rng _ lo hi => cleanTok lo && cleanTok hi && (den.int lo).isSome &&
      (den.int hi).isSome && d.all (fun p => p.1 != altText (.rng false lo hi)) &&
      d.all (fun p => p.1 != altText (.rng true lo hi))
  | .str _, .lit t => cleanTok t && (den.str t).isSome && (t.head? == some '"') &&
      d.all (fun p => p.1 != t)
  | .enm _, .variant n => cleanTok n && d.any (fun p => p.1 == n)
  | _, _ => false

/-- Arms within the guard: no guard expression; a single `_`, or alternatives that fit. -/
def okArm (den : Den) (d : Decl) (v : Val) (a : Arm) : Bool :=
  a.guard.isNone &&
    match a.alts with
    | [] => false
    | [.wild] => true
    | l => l.all (okAlt den d v)

/-- The value is one of the declared variants. -/
def okVal (d : Decl) : Val → Bool
  | .enm w => d.any (fun p => p.1 == w)
  | .opt _ => false
  | _ => true

/-- An enum without explicit values and with distinct names. -/
def okDecl (d : Decl) : Bool :=
  d.all (fun p => p.2.isNone) && decide (d.map Prod.fst).Nodup

end Spec

end Verif.Match
