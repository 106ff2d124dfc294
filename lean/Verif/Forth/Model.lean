import Verif.Basic

/-!
# The Forth plugin (`/repo/plugins/forth.c`)

The whole plugin is modelled: the tokenizer, the evaluator with its stacks, memory, loops and
dictionary, and the reader of definitions.  Texts are lists of characters without NUL.  The plugin is
compiled for a machine where `long` has 64 bits and `int` 32.

Simplifications: the arithmetic of `double`, `strtod` and `%f` are an environment; what goes to `stderr`
is left out; the chain of `strcmp` is a table; recursion takes fuel, and `more` says that it was not
enough, so that a program that does not end is `more` for all fuel.
-/

namespace Verif.Forth

/-- Text. -/
abbrev Str := List Char

/-- A `double`, by its bits. -/
abbrev F := UInt64

/-- The arithmetic of `double` and the C library around it: not modelled.
/repo/plugins/forth.c:290-311,345-375,495-504. -/
structure Fl where
  zero : F
  isZero : F → Bool
  add : F → F → F
  sub : F → F → F
  mul : F → F → F
  div : F → F → F
  sqrt : F → F
  ofInt : Int → F
  /-- `none`: out of the range of `long`. -/
  toInt : F → Option Int
  parse : Str → Option F
  show' : F → Str

/-- What comes of running something: a value, `exit(1)`, undefined behaviour, or not done yet. -/
inductive Out (α : Type) where
  | ok (a : α)
  | exit
  | ub
  | more
  deriving DecidableEq, Repr

namespace Out

def bind {α β : Type} : Out α → (α → Out β) → Out β
  | .ok a, f => f a
  | .exit, _ => .exit
  | .ub, _ => .ub
  | .more, _ => .more

instance : Monad Out where
  pure := .ok
  bind := Out.bind

@[simp] theorem ok_bind {α β : Type} (a : α) (f : α → Out β) : (Out.ok a >>= f) = f a := rfl
@[simp] theorem exit_bind {α β : Type} (f : α → Out β) : ((Out.exit : Out α) >>= f) = .exit := rfl
@[simp] theorem ub_bind {α β : Type} (f : α → Out β) : ((Out.ub : Out α) >>= f) = .ub := rfl
@[simp] theorem more_bind {α β : Type} (f : α → Out β) : ((Out.more : Out α) >>= f) = .more := rfl

end Out

/-- The statics of the plugin and the text written so far.  Stacks have their top first, the dictionary
its latest word.  /repo/plugins/forth.c:8-23. -/
structure St where
  stack : List Int
  fstack : List F
  mem : Nat → Int
  here : Int
  loops : List Int
  dict : List (Str × Str)
  out : Str

/-- The statics when the plugin is loaded.  /repo/plugins/forth.c:8-23. -/
def init : St := ⟨[], [], fun _ => 0, 0, [], [], []⟩

/-! ## Tokens -/

/-- /repo/plugins/forth.c:79,88. -/
def blank (c : Char) : Bool := c = ' ' || c = '\t' || c = '\n'

/-- `next_token`: the token and the text behind the blank that ends it.
/repo/plugins/forth.c:73-98. -/
def nextToken (s : Str) : Option (Str × Str) :=
  match s.dropWhile blank with
  | [] => none
  | c :: r => some ((c :: r).takeWhile (fun c => !blank c),
      ((c :: r).dropWhile (fun c => !blank c)).drop 1)

theorem dropWhile_length (p : Char → Bool) (s : Str) : (s.dropWhile p).length ≤ s.length := by
  induction s with
  | nil => simp
  | cons c s ih =>
    rw [List.dropWhile_cons]
    split
    · rw [List.length_cons]; omega
    · exact Nat.le_refl _

theorem nextToken_length {s t r : Str} (h : nextToken s = some (t, r)) : r.length < s.length := by
  unfold nextToken at h
  have h1 := dropWhile_length blank s
  revert h
  split
  · intro h; simp at h
  · rename_i c r' he
    intro h
    injection h with h
    injection h with _ h
    rw [he] at h1
    have hb : blank c = false := by
      have := List.head?_dropWhile_not blank s
      rw [he] at this
      simpa using this
    rw [← h, List.dropWhile_cons, if_pos (by simp [hb]), List.length_drop]
    have := dropWhile_length (fun c => !blank c) r'
    rw [List.length_cons] at h1
    omega

/-- `skip_tokens_until`.  /repo/plugins/forth.c:100-114. -/
def skipUntil (stop : Str → Bool) (s : Str) : Str :=
  match h : nextToken s with
  | none => []
  | some (t, r) => if stop t then r else skipUntil stop r
termination_by s.length
decreasing_by exact nextToken_length h

/-- The loop of `do` that looks for its `loop`: the text behind it.
/repo/plugins/forth.c:224-239. -/
def findLoop (s : Str) (depth : Nat) : Option Str :=
  match h : nextToken s with
  | none => none
  | some (t, r) =>
    let depth := if t = "do".toList then depth + 1 else depth
    if t = "loop".toList then
      if depth = 0 then some r else findLoop r (depth - 1)
    else findLoop r depth
termination_by s.length
decreasing_by
  · exact nextToken_length h
  · exact nextToken_length h

/-! ## Numbers -/

/-- `isspace`. -/
def isspace (c : Char) : Bool := c = ' ' || ('\t' ≤ c && c ≤ '\r')

/-- The value of a digit, in any base up to 16. -/
def digit (c : Char) : Option Nat :=
  if '0' ≤ c ∧ c ≤ '9' then some (c.toNat - 48)
  else if 'a' ≤ c ∧ c ≤ 'f' then some (c.toNat - 87)
  else if 'A' ≤ c ∧ c ≤ 'F' then some (c.toNat - 55)
  else none

/-- All of the text as digits of a base. -/
def digits (base : Nat) : Str → Nat → Option Nat
  | [], a => some a
  | c :: r, a =>
    match digit c with
    | some d => if d < base then digits base r (a * base + d) else none
    | none => none

/-- At least one digit. -/
def number (base : Nat) : Str → Option Nat
  | [] => none
  | s => digits base s 0

/-- The digits with the prefix of base 0. -/
def magnitude : Str → Option Nat
  | '0' :: 'x' :: r => number 16 r
  | '0' :: 'X' :: r => number 16 r
  | '0' :: r => digits 8 r 0
  | r => number 10 r

/-- Values beyond the range of `long` become its ends. -/
def clamp (n : Int) : Int :=
  if n < -9223372036854775808 then -9223372036854775808
  else if n > 9223372036854775807 then 9223372036854775807
  else n

/-- `strtol(token, &end, 0)` when it reads all of the token.  /repo/plugins/forth.c:505-507. -/
def strtol (t : Str) : Option Int :=
  match t.dropWhile isspace with
  | '-' :: r => (magnitude r).map (fun n => clamp (-(n : Int)))
  | '+' :: r => (magnitude r).map (fun n => clamp n)
  | r => (magnitude r).map (fun n => clamp n)

/-- `%d` and `%ld`, for numbers that are not negative. -/
def natText (n : Nat) : Str :=
  if n < 10 then [Char.ofNat (48 + n)] else natText (n / 10) ++ [Char.ofNat (48 + n % 10)]

/-- `%d` and `%ld`.  /repo/plugins/forth.c:370,472,489. -/
def intText (n : Int) : Str := if n < 0 then '-' :: natText n.natAbs else natText n.natAbs

/-! ## Stacks -/

/-- `push`: nothing happens when the stack is full.  /repo/plugins/forth.c:26-32. -/
def push (v : Int) (s : St) : St := if s.stack.length < 256 then { s with stack := v :: s.stack } else s

/-- `peek`.  /repo/plugins/forth.c:37-40. -/
def top (s : St) : Int := s.stack.headD 0

/-- What `pop` leaves.  /repo/plugins/forth.c:33-36. -/
def rest (s : St) : St := { s with stack := s.stack.tail }

/-- `fpush`.  /repo/plugins/forth.c:41-47. -/
def fpush (v : F) (s : St) : St :=
  if s.fstack.length < 256 then { s with fstack := v :: s.fstack } else s

/-- `fpeek`.  /repo/plugins/forth.c:52-55. -/
def ftop (E : Fl) (s : St) : F := s.fstack.headD E.zero

/-- What `fpop` leaves.  /repo/plugins/forth.c:48-51. -/
def frest (s : St) : St := { s with fstack := s.fstack.tail }

/-- A result of the arithmetic of `long`; beyond its range it is undefined. -/
def long (n : Int) : Out Int :=
  if -9223372036854775808 ≤ n ∧ n ≤ 9223372036854775807 then .ok n else .ub

/-- Truth of C. -/
def truth (b : Bool) : Int := if b then 1 else 0

/-- `&`, `|` and `^`. -/
def bits (f : BitVec 64 → BitVec 64 → BitVec 64) (a b : Int) : Int :=
  (f (BitVec.ofInt 64 a) (BitVec.ofInt 64 b)).toInt

/-- Writing to the 8192 characters of the output.  /repo/plugins/forth.c:370,374,378,399-401,532,612. -/
def write (t : Str) (s : St) : Out St :=
  if (s.out ++ t).length < 8192 then .ok { s with out := s.out ++ t } else .ub

/-- Reading `zmemory`. -/
def load (a : Int) (s : St) : Out Int := if 0 ≤ a ∧ a < 4096 then .ok (s.mem a.toNat) else .ub

/-- Writing `zmemory`. -/
def store (a v : Int) (s : St) : Out St :=
  if 0 ≤ a ∧ a < 4096 then .ok { s with mem := fun n => if n = a.toNat then v else s.mem n } else .ub

/-- Conversion to `int`. -/
def toInt32 (n : Int) : Int := (BitVec.ofInt 32 n).toInt

/-! ## The words -/

/-- The words that are built in. -/
inductive Word where
  | add | sub | mul | div | mod | shl | shr | band | bor | bxor | bnot | eq | gt | lt | choose
  | if' | else' | then' | comment | do' | loop | i
  | fadd | fsub | fmul | fdiv | fsqrt
  | dup | drop | swap | rot | nrot | fdup | fdrop | fswap | itof | ftoi
  | emit | femit | comma | dot | fdot | dotq | squote | cfetch | store | fetch | question | allot
  | var | const
  deriving DecidableEq, Repr

/-- The chain of comparisons.  /repo/plugins/forth.c:118-477. -/
def table : List (Str × Word) :=
  [("+".toList, .add), ("-".toList, .sub), ("*".toList, .mul), ("/".toList, .div),
    ("%".toList, .mod), ("<<".toList, .shl), (">>".toList, .shr), ("&".toList, .band),
    ("|".toList, .bor), ("^".toList, .bxor), ("~".toList, .bnot), ("=".toList, .eq),
    (">".toList, .gt), ("<".toList, .lt), ("choose".toList, .choose), ("if".toList, .if'),
    ("else".toList, .else'), ("then".toList, .then'), ("(".toList, .comment), ("do".toList, .do'),
    ("loop".toList, .loop), ("i".toList, .i), ("f+".toList, .fadd), ("f-".toList, .fsub),
    ("f*".toList, .fmul), ("f/".toList, .fdiv), ("fsqrt".toList, .fsqrt), ("dup".toList, .dup),
    ("drop".toList, .drop), ("swap".toList, .swap), ("rot".toList, .rot), ("-rot".toList, .nrot),
    ("fdup".toList, .fdup), ("fdrop".toList, .fdrop), ("fswap".toList, .fswap),
    ("i>f".toList, .itof), ("f>i".toList, .ftoi), ("emit".toList, .emit), ("femit".toList, .femit),
    (",".toList, .comma), (".".toList, .dot), ("f.".toList, .fdot), (".\"".toList, .dotq),
    ("s\"".toList, .squote), ("c@".toList, .cfetch), ("!".toList, .store), ("@".toList, .fetch),
    ("?".toList, .question), ("allot".toList, .allot), ("variable".toList, .var),
    ("constant".toList, .const)]

/-- The word of a token. -/
def builtin (t : Str) : Option Word := table.lookup t

/-- Two operands, the second on top. -/
def binary (f : Int → Int → Out Int) (s : St) : Out St := do
  .ok (push (← f (top (rest s)) (top s)) (rest (rest s)))

/-- Two operands of the other stack. -/
def fbinary (E : Fl) (f : F → F → F) (s : St) : St :=
  fpush (f (ftop E (frest s)) (ftop E s)) (frest (frest s))

/-- Words that neither look at the text behind them nor run anything.
/repo/plugins/forth.c:118-187,199-202,274-387,436-460. -/
def plain (E : Fl) : Word → St → Out St
  | .add, s => binary (fun a b => long (a + b)) s
  | .sub, s => binary (fun a b => long (a - b)) s
  | .mul, s => binary (fun a b => long (a * b)) s
  -- the dividend is taken only when the divisor is not zero
  | .div, s => if top s = 0 then .ok (push 0 (rest s)) else binary (fun a b => long (a.tdiv b)) s
  | .mod, s => if top s = 0 then .ok (push 0 (rest s))
      else binary (fun a b => do let _ ← long (a.tdiv b); .ok (a.tmod b)) s
  | .shl, s => binary (fun a b =>
      if 0 ≤ b ∧ b < 64 ∧ 0 ≤ a then long (a * 2 ^ b.toNat) else .ub) s
  | .shr, s => binary (fun a b => if 0 ≤ b ∧ b < 64 then .ok (a / 2 ^ b.toNat) else .ub) s
  | .band, s => binary (fun a b => .ok (bits (· &&& ·) a b)) s
  | .bor, s => binary (fun a b => .ok (bits (· ||| ·) a b)) s
  | .bxor, s => binary (fun a b => .ok (bits (· ^^^ ·) a b)) s
  | .bnot, s => .ok (push (-(top s) - 1) (rest s))
  | .eq, s => binary (fun a b => .ok (truth (a = b))) s
  | .gt, s => binary (fun a b => .ok (truth (a > b))) s
  | .lt, s => binary (fun a b => .ok (truth (a < b))) s
  | .choose, s =>
      let f := top s
      let t := top (rest s)
      let c := top (rest (rest s))
      .ok (push (if c ≠ 0 then t else f) (rest (rest (rest s))))
  | .i, s =>
      match s.loops with
      | i :: _ => .ok (push i s)
      | [] => .exit
  | .fadd, s => .ok (fbinary E E.add s)
  | .fsub, s => .ok (fbinary E E.sub s)
  | .fmul, s => .ok (fbinary E E.mul s)
  | .fdiv, s => if E.isZero (ftop E s) then .ok (fpush E.zero (frest s)) else .ok (fbinary E E.div s)
  | .fsqrt, s => .ok (fpush (E.sqrt (ftop E s)) (frest s))
  | .dup, s => .ok (push (top s) s)
  | .drop, s => .ok (rest s)
  | .swap, s =>
      let a := top s
      let b := top (rest s)
      .ok (push b (push a (rest (rest s))))
  | .rot, s =>
      let a := top s
      let b := top (rest s)
      let c := top (rest (rest s))
      .ok (push c (push a (push b (rest (rest (rest s))))))
  | .nrot, s =>
      let a := top s
      let b := top (rest s)
      let c := top (rest (rest s))
      .ok (push b (push c (push a (rest (rest (rest s))))))
  | .fdup, s => .ok (fpush (ftop E s) s)
  | .fdrop, s => .ok (frest s)
  | .fswap, s =>
      let a := ftop E s
      let b := ftop E (frest s)
      .ok (fpush b (fpush a (frest (frest s))))
  | .itof, s => .ok (fpush (E.ofInt (top s)) (rest s))
  | .ftoi, s =>
      match E.toInt (ftop E s) with
      | some n => .ok (push n (frest s))
      | none => .ub
  | .emit, s => write (intText (top s)) (rest s)
  | .femit, s => write (E.show' (ftop E s)) (frest s)
  | .comma, s => write ", ".toList s
  | .cfetch, s => do .ok (push (← load (top s) s) (rest s))
  | .fetch, s => do .ok (push (← load (top s) s) (rest s))
  | .store, s => store (top s) (top (rest s)) (rest (rest s))
  | .question, s => do let _ ← load (top s) s; .ok (rest s)
  | .allot, s => do .ok { rest s with here := toInt32 (← long (s.here + top s)) }
  | _, s => .ok s

/-- The iterations of a loop from `i` on.  /repo/plugins/forth.c:250-270. -/
def iterate (run : Str → St → Out St) (body : Str) : Nat → Int → St → Out St
  | 0, _, s => .ok s
  | n + 1, i, s =>
    if s.loops.length < 32 then do
      let s' ← run body { s with loops := i :: s.loops }
      iterate run body n (i + 1) { s' with loops := s'.loops.tail }
    else .exit

/-- One blank is skipped.  /repo/plugins/forth.c:391-394,413-416. -/
def afterBlank : Str → Str
  | ' ' :: p => p
  | p => p

/-- The text up to a quotation mark, and behind it.  /repo/plugins/forth.c:395-403,417-428. -/
def upTo (p : Str) : Option (Str × Str) :=
  if '"' ∈ p then some (p.takeWhile (· ≠ '"'), (p.dropWhile (· ≠ '"')).drop 1) else none

/-- The text of `."` and `s"`.  /repo/plugins/forth.c:390-395,412-417. -/
def quoted (r : Str) : Option (Str × Str) := upTo (afterBlank r)

/-- `s"` puts its characters to the memory; characters are positive.  /repo/plugins/forth.c:422-425. -/
def putChars : Str → St → Out St
  | [], s => .ok s
  | c :: r, s => do
    let s ← store s.here c.toNat s
    putChars r { s with here := s.here + 1 }

/-- A new word, when there is room.  /repo/plugins/forth.c:469-475,486-491,576-581. -/
def define (name body : Str) (s : St) : St :=
  if s.dict.length < 128 then { s with dict := (name, body) :: s.dict } else s

/-- `variable` and `constant` copy the name to 32 characters.
/repo/plugins/forth.c:461-492. -/
def named (name body : Str) (s : St) : Out St :=
  if s.dict.length < 128 then
    if name.length < 32 then .ok (define name body s) else .ub
  else .ok s

/-- A token that is no built-in word: a number, a word, or text.  /repo/plugins/forth.c:493-535. -/
def other (E : Fl) (run : Str → St → Out St) (t : Str) (s : St) : Out St :=
  match (if '.' ∈ t then E.parse t else none) with
  | some x => .ok (fpush x s)
  | none =>
    match strtol t with
    | some n => .ok (push n s)
    | none =>
      match s.dict.lookup t with
      | some body => run body s
      | none => write (t ++ [' ']) s

/-- `eval_forth_token`: what is left of the text, and the state.  /repo/plugins/forth.c:116-536. -/
def eval (E : Fl) (run : Str → St → Out St) (t r : Str) (s : St) : Out (Str × St) :=
  match builtin t with
  | none => do .ok (r, ← other E run t s)
  | some .if' =>
      if top s = 0 then
        .ok (skipUntil (fun t => t = "then".toList || t = "else".toList) r, rest s)
      else .ok (r, rest s)
  | some .else' => .ok (skipUntil (fun t => t = "then".toList) r, s)
  | some .comment => .ok (skipUntil (fun t => decide (')' ∈ t)) r, s)
  | some .do' =>
      let start := top s
      let limit := top (rest s)
      match findLoop r 0 with
      | none => .exit
      | some r' => do
        let body := r.take (r.length - r'.length)
        .ok (r', ← iterate run body (limit - start).toNat start (rest (rest s)))
  | some .dotq =>
      match quoted r with
      | some (t, r) => do .ok (r, ← write t s)
      | none => .exit
  | some .squote =>
      match quoted r with
      | some (t, r) => do
        let s' ← putChars t s
        .ok (r, push t.length (push s.here s'))
      | none => .exit
  | some .var =>
      match nextToken r with
      | none => .exit
      | some (name, r) => do
        let s' ← named name (intText s.here) s
        .ok (r, if s.dict.length < 128 then { s' with here := s'.here + 1 } else s')
  | some .const =>
      match nextToken r with
      | none => .exit
      | some (name, r) => do .ok (r, ← named name (intText (top s)) (rest s))
  | some w => do .ok (r, ← plain E w s)

/-- The loop over the tokens of a loop or a word.  /repo/plugins/forth.c:261-267,518-525. -/
def run (E : Fl) : Nat → Str → St → Out St
  | 0, _, _ => .more
  | k + 1, text, s =>
    match nextToken text with
    | none => .ok s
    | some (t, r) => do
      let p ← eval E (run E k) t r s
      run E k p.1 p.2

/-- The state of the reader: running, at the name of a definition, or in its body.
/repo/plugins/forth.c:542-545. -/
inductive Mode where
  | running
  | name
  | body (name body : Str)
  deriving DecidableEq, Repr

/-- A token of a body: a blank is put first, and the token only if there is room; 512 characters with
the NUL.  /repo/plugins/forth.c:586-593. -/
def addToken (body t : Str) : Out Str :=
  let body' := if 0 < body.length then body ++ [' '] else body
  if body'.length < 512 then
    .ok (if body'.length + t.length < 512 then body' ++ t else body')
  else .ub

/-- `process_forth_source`.  /repo/plugins/forth.c:538-597. -/
def source (E : Fl) : Nat → Str → Mode → St → Out St
  | 0, _, _, _ => .more
  | k + 1, text, m, s =>
    match nextToken text with
    | none => .ok s
    | some (t, r) =>
      if t = "#end".toList then .ok s
      else
        match m with
        | .running =>
          if t = ":".toList then source E k r .name s
          else do
            let p ← eval E (run E k) t r s
            source E k p.1 .running p.2
        | .name => source E k r (.body (t.take 31) []) s
        | .body n b =>
          if t = ";".toList then source E k r .running (define n b s)
          else do source E k r (.body n (← addToken b t)) s

/-- `zprep_forth_plugin_fn`: a block of the program; what it leaves for the next one, with its output.
`load_prelude` (/repo/plugins/forth.c:599-608) is called from nowhere.
/repo/plugins/forth.c:610-630. -/
def block (E : Fl) (k : Nat) (src : Str) (s : St) : Out St := source E k src .running { s with out := [] }

/-! ## What programs mean -/

namespace Spec

/-- Words and numbers with a blank behind each. -/
def text (ws : List Str) : Str := ws.flatMap (fun w => w ++ [' '])

/-- Numerals. -/
inductive Dec : Str → Nat → Prop
  | one {v : Nat} : v < 10 → Dec [Char.ofNat (48 + v)] v
  | snoc {s : Str} {n v : Nat} : Dec s n → 0 < n → v < 10 →
      Dec (s ++ [Char.ofNat (48 + v)]) (n * 10 + v)

/-- Operators. -/
inductive Op where
  | add | sub | mul | div | mod | eq | gt | lt
  deriving DecidableEq, Repr

/-- Arithmetic expressions. -/
inductive Ex where
  | num (s : Str) (n : Nat)
  | bin (o : Op) (a b : Ex)
  | choose (c a b : Ex)

/-- The words for the operators. -/
def Op.name : Op → Str
  | .add => "+".toList
  | .sub => "-".toList
  | .mul => "*".toList
  | .div => "/".toList
  | .mod => "%".toList
  | .eq => "=".toList
  | .gt => ">".toList
  | .lt => "<".toList

/-- What the operators are in the integers; division rounds towards zero. -/
def Op.den : Op → Int → Int → Int
  | .add, a, b => a + b
  | .sub, a, b => a - b
  | .mul, a, b => a * b
  | .div, a, b => a.tdiv b
  | .mod, a, b => a.tmod b
  | .eq, a, b => if a = b then 1 else 0
  | .gt, a, b => if a > b then 1 else 0
  | .lt, a, b => if a < b then 1 else 0

/-- Postfix form. -/
def Ex.post : Ex → List Str
  | .num s _ => [s]
  | .bin o a b => a.post ++ b.post ++ [o.name]
  | .choose c a b => c.post ++ a.post ++ b.post ++ ["choose".toList]

/-- The value. -/
def Ex.val : Ex → Int
  | .num _ n => n
  | .bin o a b => o.den a.val b.val
  | .choose c a b => if c.val ≠ 0 then a.val else b.val

/-- `long`. -/
def Range (n : Int) : Prop := -9223372036854775808 ≤ n ∧ n ≤ 9223372036854775807

/-- Numerals are right, nothing is divided by zero, and all values are in range. -/
def Ex.Good : Ex → Prop
  | .num s n => Dec s n ∧ Range n
  | .bin o a b => a.Good ∧ b.Good ∧ Range (o.den a.val b.val) ∧
      ((o = .div ∨ o = .mod) → b.val ≠ 0 ∧ Range (a.val.tdiv b.val))
  | .choose c a b => c.Good ∧ a.Good ∧ b.Good

/-- How many places on the stack are needed. -/
def Ex.need : Ex → Nat
  | .num _ _ => 1
  | .bin _ a b => max a.need (b.need + 1)
  | .choose c a b => max c.need (max (a.need + 1) (b.need + 2))

/-- Programs with structure, over some words. -/
inductive Prog where
  | skip
  | word (w : Str)
  | seq (p q : Prog)
  | ift (p : Prog)
  | ifte (p q : Prog)
  | loop (p : Prog)

/-- Their text. -/
def Prog.words : Prog → List Str
  | .skip => []
  | .word w => [w]
  | .seq p q => p.words ++ q.words
  | .ift p => "if".toList :: p.words ++ ["then".toList]
  | .ifte p q => "if".toList :: p.words ++ "else".toList :: q.words ++ ["then".toList]
  | .loop p => "do".toList :: p.words ++ ["loop".toList]

/-- No conditional in a conditional. -/
def Prog.flat : Prog → Bool
  | .skip => true
  | .word _ => true
  | .seq p q => p.flat && q.flat
  | .ift _ => false
  | .ifte _ _ => false
  | .loop p => p.flat

/-- No conditional has another one inside. -/
def Prog.simple : Prog → Bool
  | .skip => true
  | .word _ => true
  | .seq p q => p.simple && q.simple
  | .ift p => p.flat
  | .ifte p q => p.flat && q.flat
  | .loop p => p.simple

/-- The values of `i`. -/
def turns (f : St → Out St) : Nat → Int → St → Out St
  | 0, _, s => .ok s
  | n + 1, i, s =>
    if s.loops.length < 32 then
      match f { s with loops := i :: s.loops } with
      | .ok s' => turns f n (i + 1) { s' with loops := s'.loops.drop 1 }
      | o => o
    else .exit

/-- What a program does, when `M` says what the words do: conditionals take the topmost number, loops
the first value of `i` and its bound. -/
def Prog.exec (M : Str → St → Out St) : Prog → St → Out St
  | .skip, s => .ok s
  | .word w, s => M w s
  | .seq p q, s =>
    match p.exec M s with
    | .ok s' => q.exec M s'
    | o => o
  | .ift p, s =>
    match s.stack with
    | [] => .ok s
    | v :: st => if v = 0 then .ok { s with stack := st } else p.exec M { s with stack := st }
  | .ifte p q, s =>
    match s.stack with
    | [] => q.exec M s
    | v :: st => if v = 0 then q.exec M { s with stack := st } else p.exec M { s with stack := st }
  | .loop p, s =>
    turns (p.exec M) (s.stack.getD 1 0 - s.stack.getD 0 0).toNat (s.stack.getD 0 0)
      { s with stack := s.stack.drop 2 }

end Spec

end Verif.Forth
