import Verif.Basic
import Verif.Brainfuck.Model

/-!
# The Befunge plugin: model

`befunge_transpile` (plugins/befunge.c:9-196): the grid it reads, the statements it writes for each cell
with their meaning in C, and the way the cells are entered (`goto *dispatch[y][x]`).

Simplified: the written statements are the constructors of `CStmt` rather than text (the text is in the
comments); bytes are `Char`s; of the array `stack` only the part below `sp` is kept, which is all a defined
execution reads.  The collection of the text between the braces is `Brainfuck.collect`.
-/

namespace Verif.Befunge

/-! ## The grid -/

/-- a grid: row, column -/
abbrev Grid := Nat → Nat → Char

/-- `grid[row][col] = c` (plugins/befunge.c:36) -/
def Grid.set (g : Grid) (r c : Nat) (ch : Char) : Grid :=
  fun i j => if i = r ∧ j = c then ch else g i j

/-- the skipped lines in front (plugins/befunge.c:18-21) -/
def skipNl : List Char → List Char
  | [] => []
  | c :: cs => if c = '\n' ∨ c = '\r' then skipNl cs else c :: cs

/-- the loop over the text (plugins/befunge.c:23-40) -/
def load : List Char → Nat → Nat → Grid → Grid
  | [], _, _, g => g
  | c :: cs, row, col, g =>
      if c = '\n' then
        if row + 1 ≥ 25 then g else load cs (row + 1) 0 g
      else if col < 80 then load cs row (col + 1) (g.set row col c)
      else load cs row col g

/-- the grid of a text (plugins/befunge.c:13-40); `memset` fills it with spaces -/
def gridOf (body : List Char) : Grid := load (skipNl body) 0 0 (fun _ _ => ' ')

/-! ## The statements -/

/-- what is written behind the label of a cell -/
inductive CStmt where
  /-- `if(string_mode) { stack[sp++] = '%c'; } else { stack[sp++] = %c; }` -/
  | digit (c : Char)
  /-- `string_mode = !string_mode;` -/
  | toggle
  /-- `dx=%d; dy=%d;` -/
  | dir (dx dy : Int)
  /-- `{ long a=stack[--sp]; stack[sp-1]+=a; }` -/
  | add
  /-- `{ long a=stack[--sp]; stack[sp-1]-=a; }` -/
  | sub
  /-- `{ long a=stack[--sp]; stack[sp-1]*=a; }` -/
  | mul
  /-- `{ long a=stack[--sp]; stack[sp-1]= (a!=0)?stack[sp-1]/a:0; }` -/
  | div
  /-- `{ long a=stack[--sp]; stack[sp-1]= (a!=0)?stack[sp-1]%a:0; }` -/
  | mod
  /-- `stack[sp-1] = !stack[sp-1];` -/
  | not
  /-- `{ long a=stack[--sp]; stack[sp-1]=(stack[sp-1]>a); }` -/
  | gt
  /-- `if(sp>0) { stack[sp]=stack[sp-1]; sp++; }` -/
  | dup
  /-- `if(sp>1) { long t=stack[sp-1]; stack[sp-1]=stack[sp-2]; stack[sp-2]=t; }` -/
  | swap
  /-- `if(sp>0) sp--;` -/
  | drop
  /-- `printf("%ld ", stack[--sp]);` -/
  | putNum
  /-- `printf("%c", (char)stack[--sp]);` -/
  | putChar
  /-- `{ long a=stack[--sp]; dx=a?-1:1; dy=0; }` -/
  | horiz
  /-- `{ long a=stack[--sp]; dx=0; dy=a?-1:1; }` -/
  | vert
  /-- `goto end_befunge;` -/
  | halt
  /-- `x+=dx; y+=dy;` -/
  | bridge
  /-- `if(string_mode) stack[sp++] = '%c';` -/
  | strChar (c : Char)
deriving DecidableEq

/-- the choice by the character of the cell (plugins/befunge.c:77-176) -/
def emitOp (op : Char) : CStmt :=
  if '0' ≤ op ∧ op ≤ '9' then .digit op
  else if op = '"' then .toggle
  else if op = '>' then .dir 1 0
  else if op = '<' then .dir (-1) 0
  else if op = '^' then .dir 0 (-1)
  else if op = 'v' then .dir 0 1
  else if op = '+' then .add
  else if op = '-' then .sub
  else if op = '*' then .mul
  else if op = '/' then .div
  else if op = '%' then .mod
  else if op = '!' then .not
  else if op = '`' then .gt
  else if op = ':' then .dup
  else if op = '\\' then .swap
  else if op = '$' then .drop
  else if op = '.' then .putNum
  else if op = ',' then .putChar
  else if op = '_' then .horiz
  else if op = '|' then .vert
  else if op = '@' then .halt
  else if op = '#' then .bridge
  else .strChar op

/-- what stands at the label `dispatch[y][x]` leads to: nothing but the move for `space_handler`
(plugins/befunge.c:47-67, 186-190) -/
def cellCode (g : Grid) (r c : Nat) : Option CStmt :=
  if g r c = ' ' then none else some (emitOp (g r c))

/-- labels of a block -/
inductive Label where
  | cell (r c : Nat)
  | space
  | stop
deriving DecidableEq

/-- the labels a block defines: one for each cell that is not blank, `space_handler` and `end_befunge`
(plugins/befunge.c:70-75, 186, 192) -/
def labels (g : Grid) : List Label :=
  ((List.range 25).flatMap fun r => (List.range 80).filterMap fun c =>
    if g r c = ' ' then none else some (.cell r c)) ++ [.space, .stop]

/-- a constant `'c'` is C for a printable ASCII character other than `'` (and `\`, which has a case of
its own) -/
def goodConst (c : Char) : Prop := 32 ≤ c.toNat ∧ c.toNat ≤ 126 ∧ c ≠ '\''

/-- the C compiler takes the block: the constants written for its cells are well formed -/
def compiles (g : Grid) : Prop :=
  ∀ r c ch, r < 25 → c < 80 → cellCode g r c = some (.strChar ch) → goodConst ch

/-! ## Their meaning in C -/

/-- the variables of the block (plugins/befunge.c:43-45); top of the stack first, `sp` is its length -/
structure CSt where
  stack : List Int
  x : Int
  y : Int
  dx : Int
  dy : Int
  str : Bool
  out : List Char
deriving DecidableEq

/-- inside the block, or behind `end_befunge` -/
inductive CConf where
  | run (s : CSt)
  | done (out : List Char)
deriving DecidableEq

/-- a `long` result; what does not fit is undefined -/
def long (v : Int) : Res Int :=
  if -9223372036854775808 ≤ v ∧ v ≤ 9223372036854775807 then .ok v else .ub

/-- `stack[sp++] = v`, 1024 elements -/
def CSt.push (s : CSt) (v : Int) : Res CSt :=
  if s.stack.length < 1024 then .ok { s with stack := v :: s.stack } else .ub

/-- `stack[--sp]` -/
def CSt.pop (s : CSt) : Res (Int × CSt) :=
  match s.stack with
  | [] => .ub
  | a :: t => .ok (a, { s with stack := t })

/-- `stack[sp-1] = f(stack[sp-1])` -/
def CSt.onTop (s : CSt) (f : Int → Res Int) : Res CSt :=
  match s.stack with
  | [] => .ub
  | b :: t => (f b).bind fun v => .ok { s with stack := v :: t }

/-- the digits `printf("%ld ")` writes -/
def number (v : Int) : List Char := (toString v).toList ++ [' ']

/-- the byte `printf("%c", (char)v)` writes -/
def byte (v : Int) : List Char := [Char.ofNat (v % 256).toNat]

/-- one statement; `none`: the jump to `end_befunge` -/
def exec (s : CSt) : CStmt → Res (Option CSt)
  | .digit c =>
      (s.push (if s.str then (c.toNat : Int) else (c.toNat : Int) - 48)).bind fun s => .ok (some s)
  | .toggle => .ok (some { s with str := !s.str })
  | .dir dx dy => .ok (some { s with dx := dx, dy := dy })
  | .add => s.pop.bind fun (a, s) => (s.onTop fun b => long (b + a)).bind fun s => .ok (some s)
  | .sub => s.pop.bind fun (a, s) => (s.onTop fun b => long (b - a)).bind fun s => .ok (some s)
  | .mul => s.pop.bind fun (a, s) => (s.onTop fun b => long (b * a)).bind fun s => .ok (some s)
  | .div => s.pop.bind fun (a, s) =>
      (s.onTop fun b => if a ≠ 0 then long (b.tdiv a) else .ok 0).bind fun s => .ok (some s)
  | .mod => s.pop.bind fun (a, s) =>
      (s.onTop fun b => if a ≠ 0 then (long (b.tdiv a)).bind fun _ => .ok (b.tmod a) else .ok 0).bind
        fun s => .ok (some s)
  | .not => (s.onTop fun b => .ok (if b = 0 then 1 else 0)).bind fun s => .ok (some s)
  | .gt => s.pop.bind fun (a, s) =>
      (s.onTop fun b => .ok (if b > a then 1 else 0)).bind fun s => .ok (some s)
  | .dup =>
      match s.stack with
      | [] => .ok (some s)
      | a :: _ => (s.push a).bind fun s => .ok (some s)
  | .swap =>
      match s.stack with
      | a :: b :: t => .ok (some { s with stack := b :: a :: t })
      | _ => .ok (some s)
  | .drop => .ok (some { s with stack := s.stack.tail })
  | .putNum => s.pop.bind fun (a, s) => .ok (some { s with out := s.out ++ number a })
  | .putChar => s.pop.bind fun (a, s) => .ok (some { s with out := s.out ++ byte a })
  | .horiz => s.pop.bind fun (a, s) => .ok (some { s with dx := if a ≠ 0 then -1 else 1, dy := 0 })
  | .vert => s.pop.bind fun (a, s) => .ok (some { s with dx := 0, dy := if a ≠ 0 then -1 else 1 })
  | .halt => .ok none
  | .bridge => .ok (some { s with x := s.x + s.dx, y := s.y + s.dy })
  | .strChar c => if s.str then (s.push c.toNat).bind fun s => .ok (some s) else .ok (some s)

/-- `if(x>=n) x=0; else if(x<0) x=n-1;` (plugins/befunge.c:180-181) -/
def wrap (n x : Int) : Int := if x ≥ n then 0 else if x < 0 then n - 1 else x

/-- the move behind every cell (plugins/befunge.c:179-182) -/
def CSt.move (s : CSt) : CSt := { s with x := wrap 80 (s.x + s.dx), y := wrap 25 (s.y + s.dy) }

/-- from one `goto *dispatch[y][x]` to the next; outside the table it is undefined -/
def cstep (g : Grid) (s : CSt) : Res CConf :=
  if 0 ≤ s.x ∧ s.x < 80 ∧ 0 ≤ s.y ∧ s.y < 25 then
    match cellCode g s.y.toNat s.x.toNat with
    | none => .ok (.run s.move)
    | some c => (exec s c).bind fun o =>
        match o with
        | none => .ok (.done s.out)
        | some s' => .ok (.run s'.move)
  else .ub

/-- `n` cells -/
def crun (g : Grid) : Nat → CConf → Res CConf
  | 0, c => .ok c
  | _ + 1, .done o => .ok (.done o)
  | n + 1, .run s => (cstep g s).bind (crun g n)

/-- the block is entered at the upper left, heading right (plugins/befunge.c:43-45, 68) -/
def cstart : CConf := .run { stack := [], x := 0, y := 0, dx := 1, dy := 0, str := false, out := [] }

/-- the compiled program -/
def compiled (body : List Char) (n : Nat) : Res CConf := crun (gridOf body) n cstart

/-! ## Befunge-93 -/

namespace Spec

/-- the rows of a text -/
def lines : List Char → List (List Char)
  | [] => [[]]
  | c :: cs =>
      if c = '\n' then [] :: lines cs
      else
        match lines cs with
        | [] => [[c]]
        | l :: ls => (c :: l) :: ls

/-- the playfield: 80 by 25 cells, blank where the text has nothing -/
def field (text : List Char) : Grid := fun r c => (((lines text)[r]?).getD [])[c]?.getD ' '

/-- the state: the playfield belongs to it, as `p` can change it -/
structure St where
  grid : Grid
  stack : List Int
  x : Int
  y : Int
  dx : Int
  dy : Int
  str : Bool
  out : List Char

/-- running, or ended by `@` -/
inductive Conf where
  | run (s : St)
  | done (out : List Char)

/-- popping gives 0 on an empty stack -/
def pop : List Int → Int × List Int
  | [] => (0, [])
  | a :: t => (a, t)

/-- the cell the counter is at -/
def St.cur (s : St) : Char := s.grid s.y.toNat s.x.toNat

/-- one cell on, on the torus -/
def St.advance (s : St) : St := { s with x := (s.x + s.dx) % 80, y := (s.y + s.dy) % 25 }

/-- push -/
def St.push (s : St) (v : Int) : St := { s with stack := v :: s.stack }

/-- replace the two top values `b a` by `f b a` -/
def St.bin (s : St) (f : Int → Int → Int) : St :=
  let (a, t) := pop s.stack
  let (b, t) := pop t
  { s with stack := f b a :: t }

/-- truth values -/
def bool (p : Prop) [Decidable p] : Int := if p then 1 else 0

/-- one instruction outside string mode.  No meaning is given (`none`) to a division by zero, and to
`?`, `&` and `~`, which need chance or input. -/
def instr (s : St) (c : Char) : Option St :=
  if '0' ≤ c ∧ c ≤ '9' then some (s.push (c.toNat - 48))
  else match c with
  | '"' => some { s with str := true }
  | '>' => some { s with dx := 1, dy := 0 }
  | '<' => some { s with dx := -1, dy := 0 }
  | '^' => some { s with dx := 0, dy := -1 }
  | 'v' => some { s with dx := 0, dy := 1 }
  | '+' => some (s.bin fun b a => b + a)
  | '-' => some (s.bin fun b a => b - a)
  | '*' => some (s.bin fun b a => b * a)
  | '/' => if (pop s.stack).1 = 0 then none else some (s.bin fun b a => b.tdiv a)
  | '%' => if (pop s.stack).1 = 0 then none else some (s.bin fun b a => b.tmod a)
  | '!' => some { s with stack := bool ((pop s.stack).1 = 0) :: (pop s.stack).2 }
  | '`' => some (s.bin fun b a => bool (b > a))
  | ':' => some { s with stack := (pop s.stack).1 :: (pop s.stack).1 :: (pop s.stack).2 }
  | '\\' =>
      let (a, t) := pop s.stack
      let (b, t) := pop t
      some { s with stack := b :: a :: t }
  | '$' => some { s with stack := (pop s.stack).2 }
  | '.' => some { s with stack := (pop s.stack).2, out := s.out ++ (toString (pop s.stack).1).toList ++ [' '] }
  | ',' => some { s with stack := (pop s.stack).2,
                         out := s.out ++ [Char.ofNat ((pop s.stack).1 % 256).toNat] }
  | '_' => some { s with stack := (pop s.stack).2, dx := if (pop s.stack).1 = 0 then 1 else -1, dy := 0 }
  | '|' => some { s with stack := (pop s.stack).2, dx := 0, dy := if (pop s.stack).1 = 0 then 1 else -1 }
  | '#' => some s.advance
  | 'g' =>
      let (y, t) := pop s.stack
      let (x, t) := pop t
      some { s with stack := ((s.grid y.toNat x.toNat).toNat : Int) :: t }
  | 'p' =>
      let (y, t) := pop s.stack
      let (x, t) := pop t
      let (v, t) := pop t
      some { s with stack := t, grid := s.grid.set y.toNat x.toNat (Char.ofNat (v % 256).toNat) }
  | '?' => none
  | '&' => none
  | '~' => none
  | _ => some s

/-- one cell: in string mode every character but `"` is pushed -/
def step (s : St) : Option Conf :=
  if s.str then
    if s.cur = '"' then some (.run { s with str := false }.advance)
    else some (.run (s.push s.cur.toNat).advance)
  else if s.cur = '@' then some (.done s.out)
  else (instr s s.cur).map fun s => .run s.advance

/-- `n` cells -/
def run : Nat → Conf → Option Conf
  | 0, c => some c
  | _ + 1, .done o => some (.done o)
  | n + 1, .run s => (step s).bind (run n)

/-- at the upper left, heading right -/
def start (g : Grid) : Conf :=
  .run { grid := g, stack := [], x := 0, y := 0, dx := 1, dy := 0, str := false, out := [] }

/-- fits a `long` -/
def Fits (v : Int) : Prop := -9223372036854775808 ≤ v ∧ v ≤ 9223372036854775807

/-- the characters with a meaning of their own to the plugin -/
def ops : List Char :=
  ['>', '<', '^', 'v', '+', '-', '*', '/', '%', '!', '`', ':', '\\', '$', '.', ',', '_', '|', '@', '#', ' ']

/-- where the next cell lies inside the playfield -/
def St.Inner (s : St) : Prop :=
  0 ≤ s.x + s.dx ∧ s.x + s.dx < 80 ∧ 0 ≤ s.y + s.dy ∧ s.y + s.dy < 25

/-- the steps the plugin gets right: in string mode only characters that are no instructions; the values
needed are on the stack, at most 1024 of them; results fit a `long`; `#` not at the edge it leads over;
neither `g` nor `p` -/
def Tame (s : St) : Prop :=
  if s.str then
    s.cur = '"' ∨ (s.cur ∉ ops ∧ s.stack.length < 1024)
  else
    (('0' ≤ s.cur ∧ s.cur ≤ '9') → s.stack.length < 1024) ∧
    (s.cur ∈ ['+', '-', '*', '/', '%', '`', '\\'] → 2 ≤ s.stack.length) ∧
    (s.cur ∈ ['!', ':', '.', ',', '_', '|'] → 1 ≤ s.stack.length) ∧
    (s.cur = ':' → s.stack.length < 1024) ∧
    (s.cur = '+' → Fits ((pop (pop s.stack).2).1 + (pop s.stack).1)) ∧
    (s.cur = '-' → Fits ((pop (pop s.stack).2).1 - (pop s.stack).1)) ∧
    (s.cur = '*' → Fits ((pop (pop s.stack).2).1 * (pop s.stack).1)) ∧
    (s.cur ∈ ['/', '%'] → Fits ((pop (pop s.stack).2).1.tdiv (pop s.stack).1)) ∧
    (s.cur = '#' → s.Inner) ∧ s.cur ≠ 'g' ∧ s.cur ≠ 'p'

end Spec

end Verif.Befunge
