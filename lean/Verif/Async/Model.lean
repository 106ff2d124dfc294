import Verif.Basic

/-!
# `async fn` and `await`

An `async fn f` becomes three C functions (codegen_stmt.c:558-668): `_impl_f` with the body,
`_runner_f` that a thread runs, and the wrapper `f` that fills a block with the arguments, starts
the thread and gives back the future `Async`.  `await` (codegen.c:1797-1876, the same in
codegen_stmt.c:1718-1805) joins the thread and turns the `void*` it returned into a value.

The program itself is abstract: a body is a state of type `B` whose next action is `P.next`.  What
the threads share (globals, output, memory behind pointers) is a state `S`, changed by atomic
actions.  Threads are interleaved by an arbitrary schedule.

Not modelled: `malloc` returning NULL and `pthread_create` failing (the code checks neither), two
threads waiting for each other (blocked here; the C library may report it and the code does not
look), data races inside one action, the C types `c_int`, … and `iN` (the runner writes their Zen
names, which C does not know, so such functions are not compiled).
-/

namespace Verif.Async

/-! ## Values and words -/

/-- What fits in the `void*` a thread returns: NULL, a number cast to a pointer, the address of a
block. -/
inductive Word where
  | null
  | bits (i : Int)
  | addr (p : Nat)
  deriving DecidableEq, Repr

/-- Values: integers (booleans and characters too), a floating point number `n / d`, pointers and
strings, and the bytes of a struct. -/
inductive Val where
  | unit
  | int (i : Int)
  | flt (n : Int) (d : Nat)
  | ptr (w : Word)
  | agg (bytes : List Nat)
  deriving DecidableEq, Repr

/-- Types of results.  `named` stands for structs, enums, slices, tuples and instances of generic
types, which have the same name in both printers (simplified: `const` is left out). -/
inductive Ty where
  | void | bool | string | char | i8 | u8 | i16 | u16 | i32 | u32 | i64 | u64 | f32 | f64
  | usize | isize | byte | i128 | u128 | rune | uint | int
  | ptr (t : Ty)
  | named (s : String)
  deriving DecidableEq, Repr

/-- `type_to_string` (ast.c:241-310, 343-358, 430-452). -/
def zname : Ty → String
  | .void => "void" | .bool => "bool" | .string => "string" | .char => "char"
  | .i8 => "int8_t" | .u8 => "uint8_t" | .i16 => "int16_t" | .u16 => "uint16_t"
  | .i32 => "int32_t" | .u32 => "uint32_t" | .i64 => "int64_t" | .u64 => "uint64_t"
  | .f32 => "float" | .f64 => "double" | .usize => "size_t" | .isize => "ptrdiff_t"
  | .byte => "uint8_t" | .i128 => "__int128" | .u128 => "unsigned __int128"
  | .rune => "int32_t" | .uint => "unsigned int" | .int => "int"
  | .ptr t => zname t ++ "*"
  | .named s => s

/-- `type_to_c_string` (ast.c:480-640; `codegen_type_to_string`, codegen_utils.c:784-787). -/
def cname : Ty → String
  | .void => "void" | .bool => "bool" | .string => "string" | .char => "char"
  | .i8 => "int8_t" | .u8 => "uint8_t" | .i16 => "int16_t" | .u16 => "uint16_t"
  | .i32 => "int32_t" | .u32 => "uint32_t" | .i64 => "int64_t" | .u64 => "uint64_t"
  | .f32 => "float" | .f64 => "double" | .usize => "size_t" | .isize => "ptrdiff_t"
  | .byte => "uint8_t" | .i128 => "__int128" | .u128 => "unsigned __int128"
  | .rune => "int32_t" | .uint => "unsigned int" | .int => "int32_t"
  | .ptr t => cname t ++ "*"
  | .named s => s

/-- `strncmp(s, p, strlen(p)) == 0`. -/
def starts (p s : String) : Bool := p.toList.isPrefixOf s.toList

/-- `is_struct_return_type` (codegen_utils.c:984-1004). -/
def isStruct (s : String) : Bool :=
  !(["int", "bool", "char", "float", "double", "long", "usize", "isize", "byte", "rune", "size_t",
      "ptrdiff_t", "ssize_t"].contains s) &&
  !(["uint", "int", "i8", "u8", "i16", "u16", "i32", "u32", "i64", "u64", "f32", "f64", "i128",
      "u128"].any (starts · s))

/-- Whether the runner puts the result into a block of its own (codegen_stmt.c:592-601). -/
def boxes (t : Ty) : Bool := zname t != "void" && zname t != "Async" && isStruct (zname t)

/-- How `await` turns the word into a value (codegen.c:1832-1870). -/
inductive Take where
  | nothing | box | long | raw
  deriving DecidableEq, Repr

/-- The choice by the name of the type (codegen.c:1832-1870). -/
def takeOf (s : String) : Take :=
  if !s.toList.contains '*' && s != "string" && s != "void" && s != "Async" then
    if isStruct s || starts "struct" s then .box else .long
  else if s = "void" then .nothing else .raw

/-! ## The type `await` takes the result for -/

/-- What is awaited: a call `await f(…)`, a variable that holds a future, anything else. -/
inductive Operand where
  | call | var | other
  deriving DecidableEq, Repr

/-- `is_primitive_type_name` (parser_utils.c:168-188). -/
def primitive (s : String) : Bool :=
  ["int", "i32", "u8", "i8", "i16", "u16", "u32", "i64", "u64", "f32", "float", "f64", "double",
    "void", "bool", "char", "usize", "isize", "uint", "byte", "int8_t", "uint8_t", "int16_t",
    "uint16_t", "int32_t", "uint32_t", "int64_t", "uint64_t", "size_t", "ptrdiff_t"].contains s

/-- The type of `await x`, from the text between `<` and `>` of the type of the variable
(parser_expr.c:4842-4912). -/
def varTy (s : String) : Ty :=
  if primitive s then
    if s = "string" then .string
    else if s = "int" || s = "i32" then .int
    else if s = "bool" then .bool
    else if s = "float" || s = "f32" then .f32
    else if s = "double" || s = "f64" then .f64
    else if s = "char" then .char
    else if s = "void" then .void
    else if s = "usize" then .usize
    else if s = "isize" then .isize
    else .int
  else .named s

/-- The type of an `await` of a future of a function that returns `t`: the signature for calls
(parser_expr.c:4818-4824), the name `Async<…>` for variables (parser_expr.c:3288-3316, 4842-4912),
`void*` for the rest (parser_expr.c:4913-4916, codegen_utils.c:576-612). -/
def awaitTy (op : Operand) (t : Ty) : Ty :=
  match op with
  | .call => t
  | .var => varTy (zname t)
  | .other => .ptr .void

/-! ## Conversions -/

/-- Signedness and number of bits of the integer types; `long` has `L` bits and is not in the
list. -/
def intTy : Ty → Option (Bool × Nat)
  | .char => some (true, 8) | .i8 => some (true, 8) | .u8 => some (false, 8)
  | .i16 => some (true, 16) | .u16 => some (false, 16) | .i32 => some (true, 32)
  | .u32 => some (false, 32) | .i64 => some (true, 64) | .u64 => some (false, 64)
  | .usize => some (false, 64) | .isize => some (true, 64) | .byte => some (false, 8)
  | .i128 => some (true, 128) | .u128 => some (false, 128) | .rune => some (true, 32)
  | .uint => some (false, 32) | .int => some (true, 32)
  | _ => none

/-- Conversion of an integer to a type of `n` bits. -/
def wrap (signed : Bool) (n : Nat) (i : Int) : Int :=
  if signed then Int.bmod i (2 ^ n) else i % (2 ^ n : Nat)

/-- `(void*)(long)res` (codegen_stmt.c:627-630): numbers are converted to `long`, floating point
numbers lose the fraction.  A struct cannot be converted; such a program is not compiled (here:
NULL). -/
def toLong (L : Nat) : Val → Word
  | .int i => .bits (wrap true L i)
  | .flt n d => .bits (wrap true L (n.tdiv d))
  | .ptr w => w
  | _ => .null

/-- `(T)(long)_r` (codegen.c:1862-1865). -/
def fromLong (t : Ty) : Word → Val
  | .bits i =>
    match t with
    | .bool => .int (if i = 0 then 0 else 1)
    | .f32 => .flt i 1
    | .f64 => .flt i 1
    | _ =>
      match intTy t with
      | some (s, n) => .int (wrap s n i)
      | none => .ptr (.bits i)
  | w => .ptr w

/-! ## Programs -/

/-- What a body does next. -/
inductive Act (F B S : Type) where
  /-- something that uses only the state of the body and the shared state -/
  | step (g : S → S × B)
  /-- the call `f(args)` of an `async fn`; `k` gets the future -/
  | spawn (f : F) (args : List Val) (k : Nat → B)
  /-- `await` of the future `h` of a call of `f` -/
  | await (op : Operand) (f : F) (h : Nat) (k : Val → B)
  /-- `return v` -/
  | ret (v : Val)

/-- A program: `F` are the async functions. -/
structure Prog (F B S : Type) where
  ret : F → Ty
  start : F → List Val → B
  next : B → Act F B S
  entry : B

/-! ## The machine of the compiled program -/

/-- A block on the heap: the arguments of a call, or a result. -/
inductive Cell where
  | args (vs : List Val)
  | box (v : Option Val)
  deriving DecidableEq, Repr

/-- Where a thread is. -/
inductive Phase (F B : Type) where
  /-- in `_runner_f`, before the call of `_impl_f` -/
  | enter
  /-- in the body -/
  | body (b : B)
  /-- in the wrapper of `f`: the block `a` is filled, the thread not yet started -/
  | calling (f : F) (a : Nat) (k : Nat → B)
  /-- in `await`, joined, the block `p` not yet read -/
  | joined (p : Nat) (k : Val → B)
  /-- in `await`, the block read but not yet freed -/
  | loaded (v : Val) (p : Nat) (k : Val → B)
  /-- in `_runner_f`, the body has returned, the arguments are not yet freed -/
  | leave (w : Word)
  /-- the thread has returned -/
  | done (w : Word)

/-- A thread: its function (`none`: main), the block of its arguments, the block for its result. -/
structure Th (F B : Type) where
  fn : Option F
  args : Nat
  res : Option Nat
  phase : Phase F B

/-- A state of the compiled program.  A future is the number of its thread. -/
structure Cfg (F B S : Type) where
  sh : S
  heap : Nat → Option Cell
  ths : List (Th F B)
  joins : List Nat

/-- The outcome of one step of one thread. -/
inductive Out (α : Type) where
  | stuck
  | ub
  | ok (c : α)

section
variable {F B S : Type}

/-- The heap with block `p` set. -/
def put (hp : Nat → Option Cell) (p : Nat) (c : Option Cell) : Nat → Option Cell :=
  fun q => if q = p then c else hp q

/-- The state with thread `i` set to phase `ph`. -/
def Cfg.setPhase (c : Cfg F B S) (i : Nat) (th : Th F B) (ph : Phase F B) : Cfg F B S :=
  { c with ths := c.ths.set i { th with phase := ph } }

/-- Main has returned, and with it the program. -/
def Cfg.ended (c : Cfg F B S) : Bool :=
  match c.ths[0]? with
  | some th => match th.phase with
    | .done _ => true
    | _ => false
  | none => false

/-- Before anything: main is about to run. -/
def init (P : Prog F B S) (s : S) : Cfg F B S :=
  { sh := s, heap := fun _ => none, ths := [⟨none, 0, none, .body P.entry⟩], joins := [] }

/-- One step in the body of thread `i`.  `p` is the address `malloc` gives, if it is called.
* the wrapper of `f` (codegen_stmt.c:651-664): `malloc` and the copies, here one step because
  nobody else knows the block;
* `await` (codegen.c:1846-1870): `pthread_join` of something that is no thread, of the thread
  itself (it fails and `_r` stays undefined) or of a joined thread is undefined;
* `return` (codegen_stmt.c:603-631): the result goes into the block or into the word. -/
def bodyStep (L : Nat) (P : Prog F B S) (c : Cfg F B S) (i p : Nat) (th : Th F B) (b : B) :
    Out (Cfg F B S) :=
  match P.next b with
  | .step g => .ok { c.setPhase i th (.body (g c.sh).2) with sh := (g c.sh).1 }
  | .spawn f args k =>
    if (c.heap p).isSome then .stuck
    else .ok { c.setPhase i th (.calling f p k) with heap := put c.heap p (some (.args args)) }
  | .await op f h k =>
    match c.ths[h]? with
    | none => .ub
    | some t =>
      if h ∈ c.joins ∨ h = i then .ub
      else
        match t.phase with
        | .done w =>
          let at' := awaitTy op (P.ret f)
          let c1 := fun ph => { c.setPhase i th ph with joins := h :: c.joins }
          match takeOf (cname at') with
          | .nothing => .ok (c1 (.body (k .unit)))
          | .raw => .ok (c1 (.body (k (.ptr w))))
          | .long => .ok (c1 (.body (k (fromLong at' w))))
          | .box =>
            match w with
            | .addr q => .ok (c1 (.joined q k))
            | _ => .ub
        | _ => .stuck
  | .ret v =>
    match th.fn with
    | none => .ok (c.setPhase i th (.done .null))
    | some f =>
      match th.res with
      | some q =>
        if (c.heap q).isSome then
          .ok { c.setPhase i th (.leave (.addr q)) with heap := put c.heap q (some (.box (some v))) }
        else .ub
      | none =>
        .ok (c.setPhase i th (.leave (if zname (P.ret f) = "void" then .null else toLong L v)))

/-- One step of thread `i`; `p` is the address `malloc` gives, if it is called.  When main has
returned the program has ended.
* `enter`: the block for the result is allocated (codegen_stmt.c:604-607), the arguments are read
  and the body begins (codegen_stmt.c:617-622);
* `calling`: `pthread_create` (codegen_stmt.c:662-664);
* `joined`, `loaded`: `_val = *(T*)_r; free(_r);` (codegen.c:1855-1859);
* `leave`: `free(args)` (codegen_stmt.c:623). -/
def step (L : Nat) (P : Prog F B S) (c : Cfg F B S) (i p : Nat) : Out (Cfg F B S) :=
  if c.ended then .stuck else
  match c.ths[i]? with
  | none => .stuck
  | some th =>
    match th.phase with
    | .enter =>
      match th.fn, c.heap th.args with
      | some f, some (.args vs) =>
        if boxes (P.ret f) then
          if (c.heap p).isSome then .stuck
          else .ok { c with
            heap := put c.heap p (some (.box none)),
            ths := c.ths.set i { th with res := some p, phase := .body (P.start f vs) } }
        else .ok (c.setPhase i th (.body (P.start f vs)))
      | _, _ => .ub
    | .body b => bodyStep L P c i p th b
    | .calling f a k =>
      .ok { c with
        ths := (c.ths.set i { th with phase := .body (k c.ths.length) }) ++
          [⟨some f, a, none, .enter⟩] }
    | .joined q k =>
      match c.heap q with
      | some (.box (some v)) => .ok (c.setPhase i th (.loaded v q k))
      | _ => .ub
    | .loaded v q k =>
      if (c.heap q).isSome then
        .ok { c.setPhase i th (.body (k v)) with heap := put c.heap q none }
      else .ub
    | .leave w =>
      if (c.heap th.args).isSome then
        .ok { c.setPhase i th (.done w) with heap := put c.heap th.args none }
      else .ub
    | .done _ => .stuck

/-- States the compiled program can reach, for all schedules and all choices of `malloc`. -/
inductive Reach (L : Nat) (P : Prog F B S) (s : S) : Cfg F B S → Prop where
  | init : Reach L P s (init P s)
  | step {c c'} (i p : Nat) : Reach L P s c → step L P c i p = .ok c' → Reach L P s c'

/-- A run along a schedule, for examples. -/
def run (L : Nat) (P : Prog F B S) : List (Nat × Nat) → Cfg F B S → Out (Cfg F B S)
  | [], c => .ok c
  | (i, p) :: rest, c =>
    match step L P c i p with
    | .ok c' => run L P rest c'
    | o => o

end

/-! ## The block of arguments -/

/-- `strtok(args, ",")`: the pieces between commas that are not empty (codegen_stmt.c:561-582). -/
def pieces : List Char → List Char → List (List Char)
  | acc, [] => if acc.isEmpty then [] else [acc.reverse]
  | acc, c :: cs =>
    if c = ',' then (if acc.isEmpty then pieces [] cs else acc.reverse :: pieces [] cs)
    else pieces (c :: acc) cs

/-- Type and name of one field: leading blanks are skipped, the name is behind the last blank
(codegen_stmt.c:568-580). -/
def field (tok : List Char) : Option (List Char × List Char) :=
  let t := tok.dropWhile (· = ' ')
  if t.contains ' ' then
    some (((t.reverse.dropWhile (· != ' ')).drop 1).reverse, (t.reverse.takeWhile (· != ' ')).reverse)
  else none

/-- The fields of `struct f_Args` from the text of the parameters. -/
def fields (args : List Char) : List (List Char × List Char) := (pieces [] args).filterMap field

/-- The text of the parameters, `type name, type name` (parser_utils.c:4147-4196). -/
def paramText : List (List Char × List Char) → List Char
  | [] => []
  | [(t, n)] => t ++ ' ' :: n
  | (t, n) :: rest => t ++ ' ' :: n ++ ',' :: ' ' :: paramText rest

/-! ## What is expected -/

namespace Spec

/-- A thread runs its body or has returned a value. -/
inductive St (B : Type) where
  | run (b : B)
  | done (v : Val)

/-- A thread and its function. -/
structure Th (F B : Type) where
  fn : Option F
  st : St B

/-- A state: no heap, no words. -/
structure Cfg (F B S : Type) where
  sh : S
  ths : List (Th F B)
  joins : List Nat

section
variable {F B S : Type}

/-- Main is about to run. -/
def init (P : Prog F B S) (s : S) : Cfg F B S := ⟨s, [⟨none, .run P.entry⟩], []⟩

/-- Main has returned. -/
def ended (c : Cfg F B S) : Bool :=
  match c.ths[0]? with
  | some th => match th.st with
    | .done _ => true
    | .run _ => false
  | none => false

/-- A call starts a thread with the arguments; `await` waits for the thread and gives the value it
returned. -/
inductive Step (P : Prog F B S) : Cfg F B S → Cfg F B S → Prop where
  | step {c i fn b g} : ended c = false → c.ths[i]? = some ⟨fn, .run b⟩ → P.next b = .step g →
      Step P c ⟨(g c.sh).1, c.ths.set i ⟨fn, .run (g c.sh).2⟩, c.joins⟩
  | spawn {c i fn b f args k} : ended c = false → c.ths[i]? = some ⟨fn, .run b⟩ →
      P.next b = .spawn f args k →
      Step P c ⟨c.sh, c.ths.set i ⟨fn, .run (k c.ths.length)⟩ ++ [⟨some f, .run (P.start f args)⟩],
        c.joins⟩
  | await {c i fn b op f h k fn' v} : ended c = false → c.ths[i]? = some ⟨fn, .run b⟩ →
      P.next b = .await op f h k → c.ths[h]? = some ⟨fn', .done v⟩ →
      Step P c ⟨c.sh, c.ths.set i ⟨fn, .run (k v)⟩, h :: c.joins⟩
  | ret {c i fn b v} : ended c = false → c.ths[i]? = some ⟨fn, .run b⟩ → P.next b = .ret v →
      Step P c ⟨c.sh, c.ths.set i ⟨fn, .done v⟩, c.joins⟩

/-- States that can be reached. -/
inductive Reach (P : Prog F B S) (s : S) : Cfg F B S → Prop where
  | init : Reach P s (init P s)
  | step {c c'} : Reach P s c → Step P c c' → Reach P s c'

end

/-- Values of a type. -/
def HasTy : Ty → Val → Prop
  | .void, v => v = .unit
  | .bool, v => v = .int 0 ∨ v = .int 1
  | .f32, v => ∃ n d, v = .flt n d
  | .f64, v => ∃ n d, v = .flt n d
  | .string, v => ∃ w, v = .ptr w
  | .ptr _, v => ∃ w, v = .ptr w
  | .named _, v => ∃ bs, v = .agg bs
  | .char, v => ∃ i : Int, v = .int i ∧ -2 ^ 7 ≤ i ∧ i < 2 ^ 7
  | .i8, v => ∃ i : Int, v = .int i ∧ -2 ^ 7 ≤ i ∧ i < 2 ^ 7
  | .u8, v => ∃ i : Int, v = .int i ∧ 0 ≤ i ∧ i < 2 ^ 8
  | .byte, v => ∃ i : Int, v = .int i ∧ 0 ≤ i ∧ i < 2 ^ 8
  | .i16, v => ∃ i : Int, v = .int i ∧ -2 ^ 15 ≤ i ∧ i < 2 ^ 15
  | .u16, v => ∃ i : Int, v = .int i ∧ 0 ≤ i ∧ i < 2 ^ 16
  | .i32, v => ∃ i : Int, v = .int i ∧ -2 ^ 31 ≤ i ∧ i < 2 ^ 31
  | .rune, v => ∃ i : Int, v = .int i ∧ -2 ^ 31 ≤ i ∧ i < 2 ^ 31
  | .int, v => ∃ i : Int, v = .int i ∧ -2 ^ 31 ≤ i ∧ i < 2 ^ 31
  | .u32, v => ∃ i : Int, v = .int i ∧ 0 ≤ i ∧ i < 2 ^ 32
  | .uint, v => ∃ i : Int, v = .int i ∧ 0 ≤ i ∧ i < 2 ^ 32
  | .i64, v => ∃ i : Int, v = .int i ∧ -2 ^ 63 ≤ i ∧ i < 2 ^ 63
  | .isize, v => ∃ i : Int, v = .int i ∧ -2 ^ 63 ≤ i ∧ i < 2 ^ 63
  | .u64, v => ∃ i : Int, v = .int i ∧ 0 ≤ i ∧ i < 2 ^ 64
  | .usize, v => ∃ i : Int, v = .int i ∧ 0 ≤ i ∧ i < 2 ^ 64
  | .i128, v => ∃ i : Int, v = .int i ∧ -2 ^ 127 ≤ i ∧ i < 2 ^ 127
  | .u128, v => ∃ i : Int, v = .int i ∧ 0 ≤ i ∧ i < 2 ^ 128

/-- Results an `await` hands over as they are, for a `long` of 32 or 64 bits: integers but not
strings, pointers and floating point numbers; through a variable no `u32`, `i64`, `u64`; structs
whose name begins with a capital letter. -/
def carried (L : Nat) (op : Operand) : Ty → Bool
  | .void | .bool | .char | .i8 | .u8 | .i16 | .u16 | .i32 | .byte | .rune | .int | .i128 | .u128
  | .uint => op != .other
  | .u32 => op = .call
  | .i64 | .u64 => op = .call && L = 64
  | .usize | .isize => op = .call && L = 64
  | .named s =>
    op != .other && s != "Async" && !s.toList.contains '*' &&
      (match s.toList with | c :: _ => 'A' ≤ c && c ≤ 'Z' | [] => false)
  | _ => false

/-- What is asked of the program, in terms of the expected behaviour: a future is awaited at most
once and not by its own thread, its result can be handed over, and functions return values of their
type. -/
def Tame {F B S : Type} (L : Nat) (P : Prog F B S) (s : S) : Prop :=
  ∀ c, Reach P s c → ∀ (i : Nat) (fn : Option F) (b : B), c.ths[i]? = some ⟨fn, .run b⟩ →
    (∀ op f h k, P.next b = .await op f h k →
      (∃ st, c.ths[h]? = some ⟨some f, st⟩) ∧ h ∉ c.joins ∧ h ≠ i ∧ carried L op (P.ret f) = true) ∧
    (∀ f v, fn = some f → P.next b = .ret v → HasTy (P.ret f) v)

end Spec

end Verif.Async
