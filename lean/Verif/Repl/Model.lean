import Verif.LineEdit.Model

/-!
# A session of the REPL

Model of `run_repl` (`/repo/src/repl/repl.c` lines 1051–2533): how lines become entries, how the
program that is run is put together from the entries (`repl_get_code`, lines 990–1049), the commands
that change the session, and the history file.  The line editor is the unit `LineEdit`.

Simplifications: what the compiler does with a text is not modelled but asked of an environment
(`Env`): whether the program runs, whether the parser takes a text as an expression, whether the C
compiler complains of `void`; what the editor program of `:edit` makes of a text is asked too.
Temporary files can be written, and `HOME` is set.  What is printed, the commands that only print, and `free` are left
out.  `int` does not overflow.  The memory of the program text and of the watch buffer is part of the
functions; that of the other buffers is treated in `Props`.
-/

namespace Verif.Repl

/-- Text. -/
abbrev Str := List Char

/-- The words of `is_header_line`.  /repo/src/repl/repl.c:21-63. -/
def headerWords : List Str :=
  ["struct", "impl", "fn", "use", "include", "typedef", "enum", "const", "def", "#include",
    "import"].map String.toList

/-- Skipping blanks and tabs.  /repo/src/repl/repl.c:17-20. -/
def skipBlank : Str → Str
  | [] => []
  | c :: r => if c = ' ' ∨ c = '\t' then skipBlank r else c :: r

/-- `is_header_line`.  /repo/src/repl/repl.c:14-67. -/
def isHeader (l : Str) : Bool := headerWords.any (fun w => w.isPrefixOf (skipBlank l))

/-- The braces `repl_get_code` counts: all of them.  /repo/src/repl/repl.c:1034-1044. -/
def rawDepth : Str → Int
  | [] => 0
  | c :: r => (if c = '{' then 1 else if c = '}' then -1 else 0) + rawDepth r

/-- The variables of `repl_get_code`.  /repo/src/repl/repl.c:998-1006. -/
structure Code where
  glob : Str
  main : Str
  depth : Int
  inG : Bool
  deriving DecidableEq, Repr

/-- One entry.  /repo/src/repl/repl.c:1008-1045. -/
def codeStep (c : Code) (l : Str) : Code :=
  let g := if c.depth = 0 then isHeader l else c.inG
  { glob := if g then c.glob ++ l ++ ['\n'] else c.glob
    main := if g then c.main else c.main ++ l ++ [' ']
    depth := c.depth + rawDepth l
    inG := g }

/-- `repl_get_code`.  /repo/src/repl/repl.c:990-1049. -/
def getCode (h : List Str) : Code := h.foldl codeStep ⟨[], [], 0, false⟩

/-- What the rest of the system answers. -/
structure Env where
  /-- `system("zc run -q file") == 0` for a file with this text. -/
  run : Str → Bool
  /-- Does `parse_statement` make an expression of this text? -/
  isExpr : Str → Bool
  /-- Does running this text print a complaint of a void expression? -/
  isVoid : Str → Bool
  /-- The contents of a file. -/
  file : Str → Option Str
  /-- What the editor of `:edit` makes of a text; `none` when it fails. -/
  edit : Str → Option Str

/-- The texts of `run_repl`. -/
def mainOpen : Str := "\nfn main() { _z_suppress_stdout(); ".toList
def restore : Str := "_z_restore_stdout(); ".toList

/-- The text that is run to find out whether the last entry is void: the entries before it, and an
assignment.  /repo/src/repl/repl.c:2396-2418. -/
def probe (h : List Str) (l : Str) : Str :=
  (getCode h).glob ++ mainOpen ++ (getCode h).main ++
    " raw { typedef struct { int _u; } __REVEAL_TYPE__; } ".toList ++
    " var _z_type_probe: __REVEAL_TYPE__; _z_type_probe = (".toList ++ l ++ "); }".toList

/-- `check_buf`: `snprintf(check_buf, sizeof(check_buf), …)` writes at most seven characters, because
`check_buf` is a pointer.  /repo/src/repl/repl.c:2369-2371. -/
def checkText (l : Str) : Str := l.take 7 ++ [';']

/-- What is printed behind the main code for the last entry.  /repo/src/repl/repl.c:2362-2463. -/
def lastText (E : Env) (h : List Str) (l : Str) : Str :=
  if E.isExpr (checkText l) then
    if E.isVoid (probe h l) then l
    else "println \"{".toList ++ l ++ "}\";".toList
  else l

/-- One watch.  /repo/src/repl/repl.c:2468-2472. -/
def watchText (w : Str) : Str :=
  "printf(\"\\033[90mwatch:".toList ++ w ++ " = \\033[0m\"); print \"{".toList ++ w ++
    "}\"; printf(\"\\n\"); ".toList

/-- The watches, each through a buffer of 1024 characters.  /repo/src/repl/repl.c:2465-2477. -/
def watchesText : List Str → Res Str
  | [] => .ok []
  | w :: r =>
    if (watchText w).length < 1024 then do
      let t ← watchesText r
      .ok (watchText w ++ t)
    else .ub

/-- The program that is run for the session `h ++ [l]`; `ub` when it is longer than the block it is
written to.  /repo/src/repl/repl.c:2344-2479. -/
def program (E : Env) (ws : List Str) (h : List Str) (l : Str) : Res Str := do
  let c := getCode (h ++ [l])
  let size := c.glob.length + c.main.length + 4096 + (if ws = [] then 0 else 16 * 1024)
  let w ← if ws = [] then .ok [] else (do
    let t ← watchesText ws
    .ok ("; ".toList ++ t))
  let text := c.glob ++ mainOpen ++ c.main ++ restore ++
    (if isHeader l then [] else lastText E h l) ++ w ++ " }".toList
  if text.length < size then .ok text else .ub

/-- The variables of the loop.  /repo/src/repl/repl.c:1054-1158.  `hist` is `history`, of `history_len`
entries; `live` says that its memory has not been given back; `buf` is `input_buffer`.  Two things are
kept to speak of later: `ran`, the programs that have been run for entries, and `file`, what the
session has written to the history file. -/
structure St where
  hist : List Str
  live : Bool
  watches : List Str
  buf : Option Str
  brace : Int
  paren : Int
  ran : List Str
  file : Option Str
  deriving DecidableEq, Repr

/-- The state at the start of a session. -/
def St.new (h : List Str) : St := ⟨h, true, [], none, 0, 0, [], none⟩

/-- Reading the entries of the history. -/
def reads (s : St) (x : Res St) : Res St := if s.live ∨ s.hist = [] then x else .ub

/-- `history[history_len++] = strdup(l)`. -/
def push (l : Str) (s : St) : Res St :=
  if s.live then .ok { s with hist := s.hist ++ [l] } else .ub

/-- The scanner of brackets.  /repo/src/repl/repl.c:2265-2305. -/
structure Scan where
  inq : Bool
  esc : Bool
  brace : Int
  paren : Int
  deriving DecidableEq, Repr

/-- One character. -/
def scan1 (s : Scan) (c : Char) : Scan :=
  if s.esc then { s with esc := false }
  else if c = '\\' then { s with esc := true }
  else if c = '"' then { s with inq := !s.inq }
  else if s.inq then s
  else if c = '{' then { s with brace := s.brace + 1 }
  else if c = '}' then { s with brace := s.brace - 1 }
  else if c = '(' then { s with paren := s.paren + 1 }
  else if c = ')' then { s with paren := s.paren - 1 }
  else s

/-- A line: the quotation starts afresh on every line. -/
def scanLine (brace paren : Int) (l : Str) : Scan := l.foldl scan1 ⟨false, false, brace, paren⟩

/-- Writing the history file: the last 1000 entries.  /repo/src/repl/repl.c:2509-2517. -/
def saveLines (h : List Str) : Str :=
  (h.drop (h.length - 1000)).flatMap (fun l => l ++ ['\n'])

/-- The end of the body of the loop: the history is written to its file, and it and `input_buffer` are
given back.  The pointers and `history_len` stay as they are.  The brace that closes the loop comes
after this, not before.  /repo/src/repl/repl.c:2506-2532. -/
def finish (s : St) : Res St :=
  if s.live then .ok { s with live := false, file := some (saveLines s.hist) } else .ub

/-- Running an entry: it stays in the history when the program runs.
/repo/src/repl/repl.c:2332-2503. -/
def eval (E : Env) (chunk : Str) (s : St) : Res St :=
  if s.live then do
    let text ← program E s.watches s.hist chunk
    .ok { s with
      hist := if E.run text then s.hist ++ [chunk] else s.hist
      ran := s.ran ++ [text] }
  else .ub

/-- A line of code.  `lb` is `line_buf`; `input_buffer` is null here.  An open line and an empty one
`continue`; everything else runs into `finish`.  /repo/src/repl/repl.c:2265-2532. -/
def codeLine (E : Env) (lb : Str) (s : St) : Res St :=
  let sc := scanLine s.brace s.paren lb
  if sc.brace > 0 ∨ sc.paren > 0 then
    .ok { s with buf := some lb, brace := sc.brace, paren := sc.paren }
  else
    let input := if lb.getLast? = some '\n' then lb.dropLast else lb
    let s := { s with brace := 0, paren := 0 }
    if input = [] then .ok s else do
      let s ← eval E input s
      finish s

/-- Cutting blanks and tabs off the end.  /repo/src/repl/repl.c:1200-1203. -/
def trimEnd (l : Str) : Str := (skipBlank l.reverse).reverse

/-- Is the character a digit? -/
def isDigit (c : Char) : Bool := '0' ≤ c && c ≤ '9'

/-- The digits of `atoi`. -/
def digits : Str → Nat → Nat
  | c :: r, n => if isDigit c then digits r (n * 10 + (c.toNat - 48)) else n
  | [], n => n

/-- White space of `atoi`. -/
def isSpace (c : Char) : Bool := c = ' ' || (9 ≤ c.toNat && c.toNat ≤ 13)

/-- `atoi`. -/
def atoi : Str → Int
  | [] => 0
  | c :: r =>
    if isSpace c then atoi r
    else if c = '-' then - (digits r 0 : Nat)
    else if c = '+' then (digits r 0 : Nat)
    else (digits (c :: r) 0 : Nat)

/-- `fgets(buf, n + 1, f)`: at most `n` characters, up to and with a newline. -/
def fgets : Nat → Str → Str × Str
  | 0, t => ([], t)
  | _ + 1, [] => ([], [])
  | n + 1, c :: r => if c = '\n' then (['\n'], r) else
      let p := fgets n r
      (c :: p.1, p.2)

theorem fgets_length (n : Nat) (t : Str) (hn : 0 < n) (ht : t ≠ []) :
    (fgets n t).2.length < t.length := by
  cases n with
  | zero => omega
  | succ n =>
    cases t with
    | nil => exact absurd rfl ht
    | cons c r =>
      rw [fgets]
      split
      · simp
      · have : ∀ (n : Nat) (r : Str), (fgets n r).2.length ≤ r.length := by
          intro n
          induction n with
          | zero => intro r; simp [fgets]
          | succ n ih =>
            intro r
            cases r with
            | nil => simp [fgets]
            | cons c r =>
              rw [fgets]
              split
              · simp
              · have := ih r; simp only [List.length_cons]; omega
        have := this n r
        simp only [List.length_cons]; omega

/-- Reading a file of entries, 1023 characters at a time.
/repo/src/repl/repl.c:1073-1091,1650-1668. -/
def loadLines (t : Str) : List Str :=
  if _h : t = [] then [] else
    let p := fgets 1023 t
    let l := if p.1.getLast? = some '\n' then p.1.dropLast else p.1
    if l = [] then loadLines p.2 else l :: loadLines p.2
termination_by t.length
decreasing_by
  all_goals exact fgets_length 1023 t (by omega) _h

/-- What a line leads to. -/
inductive Next where
  | go (s : St)
  | quit (s : St)
  deriving DecidableEq, Repr

/-- What a command leads to; `code` when no branch is taken and the line is treated as code. -/
inductive Out where
  | go (s : St)
  | quit
  | code
  deriving DecidableEq, Repr

/-- The newlines at the end of an edited text. -/
def chomp (t : Str) : Str := (t.reverse.dropWhile (· = '\n')).reverse

/-- The end of `:edit`: the text that comes back is put behind the history (and not run).
/repo/src/repl/repl.c:1440-1470,1508-1540. -/
def editPush (E : Env) (t : Str) (s : St) : Res St :=
  match E.edit t with
  | some r => if chomp r = [] then .ok s else push (chomp r) s
  | none => .ok s

/-- `:edit`.  /repo/src/repl/repl.c:1406-1549. -/
def editCmd (E : Env) (cmd : Str) (s : St) : Res St :=
  if s.hist = [] then
    if (cmd.drop 5).head? = none ∨ (∃ c, (cmd.drop 5).head? = some c ∧ isSpace c = true) then
      editPush E [] s
    else .ok s
  else
    let i : Int := if cmd.length > 6 then atoi (cmd.drop 6) - 1 else s.hist.length - 1
    if 0 ≤ i ∧ i < s.hist.length then
      reads s (editPush E (s.hist.getD i.toNat []) s)
    else .ok s

/-- `:load`.  /repo/src/repl/repl.c:1643-1678. -/
def loadCmd (E : Env) (name : Str) (s : St) : Res St :=
  match E.file name with
  | some t => if loadLines t = [] then .ok s else
      if s.live then .ok { s with hist := s.hist ++ loadLines t } else .ub
  | none => .ok s

/-- `:delete`.  /repo/src/repl/repl.c:1387-1405. -/
def deleteCmd (t : Str) (s : St) : Res St :=
  let i := atoi t - 1
  if 0 ≤ i ∧ i < s.hist.length then reads s (.ok { s with hist := s.hist.eraseIdx i.toNat })
  else .ok s

/-- `:watch`.  /repo/src/repl/repl.c:1550-1590. -/
def watchCmd (t : Str) (s : St) : St :=
  let e := t.dropWhile (· = ' ')
  if e ≠ [] ∧ s.watches.length < 16 then { s with watches := s.watches ++ [e] } else s

/-- `:unwatch`.  /repo/src/repl/repl.c:1591-1612. -/
def unwatchCmd (t : Str) (s : St) : St :=
  let i := atoi t - 1
  if 0 ≤ i ∧ i < s.watches.length then { s with watches := s.watches.eraseIdx i.toNat } else s

/-- The commands with a text behind a blank. -/
def prefixes : List Str := [":show ", ":save ", ":type ", ":time ", ":c "].map String.toList

/-- The commands that only look at the history. -/
def lookers : List Str := [":imports", ":history", ":vars", ":funcs", ":structs", ":run"].map String.toList

/-- A line that starts with `:`.  The messages are left out, and so are the further lines that `:c`
asks for.  /repo/src/repl/repl.c:1219-2263. -/
def command (E : Env) (cmd : Str) (s : St) : Res Out :=
  let go (x : Res St) : Res Out := do .ok (.go (← x))
  if cmd = ":help".toList ∨ cmd = ":clear".toList ∨ cmd.take 5 = ":doc ".toList then .ok (.go s)
  else if cmd = ":reset".toList then go (reads s (.ok { s with hist := [] }))
  else if cmd = ":quit".toList then .ok .quit
  else if cmd = ":undo".toList then go (reads s (.ok { s with hist := s.hist.dropLast }))
  else if cmd.take 8 = ":delete ".toList then go (deleteCmd (cmd.drop 8) s)
  else if cmd.take 5 = ":edit".toList then go (editCmd E cmd s)
  else if cmd.take 7 = ":watch ".toList then .ok (.go (watchCmd (cmd.drop 7) s))
  else if cmd.take 9 = ":unwatch ".toList then .ok (.go (unwatchCmd (cmd.drop 9) s))
  else if cmd.take 6 = ":load ".toList then go (loadCmd E (cmd.drop 6) s)
  else if prefixes.any (fun w => w.isPrefixOf cmd) ∨ cmd ∈ lookers then go (reads s (.ok s))
  else .ok .code

/-- What `:save` writes.  /repo/src/repl/repl.c:1619-1642. -/
def saveText (h : List Str) : Str :=
  (getCode h).glob ++ ['\n'] ++ "\nfn main() {\n".toList ++ (getCode h).main ++ "\n}\n".toList

/-- One line of the user, or none.  /repo/src/repl/repl.c:1182-2532.  The line is copied into 1024
characters: at most 1022 of it and a newline.  The whole body, but for the end, is under
`if (NULL == input_buffer)`. -/
def line (E : Env) (l : Option Str) (s : St) : Res Next :=
  match l with
  | none => .ok (.quit s)
  | some rl =>
    if s.buf = none then
      let code : Res Next := do .ok (.go (← codeLine E (rl.take 1022 ++ ['\n']) s))
      let cmd := trimEnd (rl.take 1022)
      if cmd = "exit".toList ∨ cmd = "quit".toList then .ok (.quit s)
      else if cmd.head? = some '!' then .ok (.go s)
      else if cmd.head? = some ':' then do
        match ← command E cmd s with
        | .go s' => .ok (.go s')
        | .quit => .ok (.quit s)
        | .code => code
      else code
    else do .ok (.go (← finish s))

/-- One round of the loop: a line is read with the indentation of the open braces, and dealt with.
Where the history has been given back, the keys that look at it would read memory that is gone; the
model lets them see the old entries, so it is milder than the code.  /repo/src/repl/repl.c:1160-2532. -/
def round (E : Env) (s : St) (input : Str) : Res (Next × Str) := do
  let (l, rest) ← LineEdit.readline s.hist s.brace.toNat input
  let n ← line E l s
  .ok (n, rest)

/-- `n` rounds, or fewer when the session ends. -/
def rounds (E : Env) : Nat → St → Str → Res (Next × Str)
  | 0, s, input => .ok (.go s, input)
  | n + 1, s, input => do
    let (x, rest) ← round E s input
    match x with
    | .go s' => rounds E n s' rest
    | .quit s' => .ok (.quit s', rest)

/-! ## What a session is -/

namespace Spec

/-- The braces of an entry are balanced. -/
def Balanced (l : Str) : Prop := l.count '{' = l.count '}'

/-- The words that begin a definition. -/
def words : List Str :=
  ["struct", "impl", "fn", "use", "include", "typedef", "enum", "const", "def", "#include",
    "import"].map String.toList

/-- An entry is a definition: behind blanks, it begins with one of the words and then something that
does not go on with a word. -/
def Definition (l : Str) : Prop :=
  ∃ b w r, l = b ++ w ++ r ∧ (∀ c ∈ b, c = ' ' ∨ c = '\t') ∧ w ∈ words ∧
    (∀ c, r.head? = some c → ¬ (c.isAlphanum ∨ c = '_'))

/-- An entry is a statement: no such word begins it. -/
def Statement (l : Str) : Prop :=
  ∀ b w r, l = b ++ w ++ r → (∀ c ∈ b, c = ' ' ∨ c = '\t') → w ∉ words

/-- A session: its definitions, each on lines of its own, and its statements, one behind the other. -/
inductive Session : List Str → Str → Str → Prop
  | nil : Session [] [] []
  | defn {h : List Str} {g m l : Str} : Session h g m → Definition l → Balanced l →
      Session (h ++ [l]) (g ++ l ++ ['\n']) m
  | stmt {h : List Str} {g m l : Str} : Session h g m → Statement l → Balanced l →
      Session (h ++ [l]) g (m ++ l ++ [' '])

/-- A piece of a line: code, or a string literal. -/
inductive Piece where
  | code (s : Str)
  | str (s : Str)
  deriving DecidableEq, Repr

/-- The body of a string literal: characters other than quotes and backslashes, and escapes. -/
inductive Body : Str → Prop
  | nil : Body []
  | char {c : Char} {s : Str} : c ≠ '"' → c ≠ '\\' → Body s → Body (c :: s)
  | esc {c : Char} {s : Str} : Body s → Body ('\\' :: c :: s)

/-- A piece as it is written. -/
def Piece.text : Piece → Str
  | .code s => s
  | .str s => '"' :: (s ++ ['"'])

/-- Code has neither quotes nor backslashes outside of strings. -/
def Piece.Ok : Piece → Prop
  | .code s => '"' ∉ s ∧ '\\' ∉ s
  | .str s => Body s

/-- The excess of one bracket over the other in the code. -/
def excess (a b : Char) (ps : List Piece) : Int :=
  ((ps.map (fun p => match p with | .code s => s.count a | .str _ => 0)).sum : Nat) -
    ((ps.map (fun p => match p with | .code s => s.count b | .str _ => 0)).sum : Nat)

/-- A line as it is written. -/
def text (ps : List Piece) : Str := ps.flatMap Piece.text

/-- Brackets of the code are open at the end of the line. -/
def Open (ps : List Piece) : Prop := 0 < excess '{' '}' ps ∨ 0 < excess '(' ')' ps

/-- A line that is an entry by itself: its brackets are closed, it is not empty and not too long, and it
is no command. -/
structure Entry (t : Str) : Prop where
  pieces : ∃ ps, t = text ps ∧ (∀ q ∈ ps, q.Ok) ∧ ¬ Open ps
  some : t ≠ []
  short : t.length ≤ 1022
  shell : t.head? ≠ .some '!'
  colon : t.head? ≠ .some ':'
  exit : ∀ b, (∀ c ∈ b, c = ' ' ∨ c = '\t') → t ≠ "exit".toList ++ b ∧ t ≠ "quit".toList ++ b

/-- A number as it is written. -/
def number (ds : List (Fin 10)) : Str := ds.map (fun d => Char.ofNat (48 + d.val))

/-- Its value. -/
def value (ds : List (Fin 10)) : Nat := ds.foldl (fun n d => n * 10 + d.val) 0

end Spec

end Verif.Repl
