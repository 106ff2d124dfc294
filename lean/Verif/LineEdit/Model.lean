import Verif.Basic

/-!
# The line editor of the REPL

Model of `repl_readline` (`/repo/src/repl/repl.c` lines 584–970) with `repl_complete` (lines
524–582): one call, from the bytes the terminal sends to the line that is handed back, on the memory
the C function uses.

Simplifications: what is printed (prompt, highlighting, cursor placement, lines 614–616 and 938–957)
is left out, and so is `free`; `malloc`, `realloc` and `strdup` succeed; `int` does not overflow;
`isalnum` and `iscntrl` are those of the C locale; a byte is a `Char` below 256; once a read
fails, every later read fails (end of input).
-/

namespace Verif.LineEdit

/-- The terminating zero of a C string. -/
def NUL : Char := '\x00'

/-- The escape byte, /repo/src/repl/repl.c:629. -/
def ESC : Char := '\x1b'

/-- `iscntrl`.  /repo/src/repl/repl.c:847,921. -/
def iscntrl (c : Char) : Bool := c.toNat < 32 || c.toNat == 127

/-- `strlen`/`strdup` reading a C string: the bytes before the first zero; running off the block or
reading an indeterminate byte is undefined. -/
def cstr : Mem Char → Res (List Char)
  | some c :: m => if c = NUL then .ok [] else do
      let t ← cstr m
      .ok (c :: t)
  | _ => .ub

/-- The block `strdup` returns. -/
def dup (s : List Char) : Mem Char := s.map some ++ [some NUL]

/-- `strstr(s, p) != NULL`. -/
def strstr (s p : List Char) : Bool :=
  p.isPrefixOf s || match s with
    | [] => false
    | _ :: t => strstr t p

/-- The variables of the function.  /repo/src/repl/repl.c:588-618.  `mem` is the block `buf` points
to, `cap` is `buf_size`, `idx` is `history_idx`, `midx` is `search_match_idx`. -/
structure St where
  mem : Mem Char
  cap : Nat
  len : Nat
  pos : Nat
  idx : Nat
  saved : Option (List Char)
  search : Bool
  pat : List Char
  midx : Nat
  deriving DecidableEq, Repr

/-- Growing the block when it is full.  /repo/src/repl/repl.c:600-604,923-927. -/
def grow (s : St) : St :=
  if s.len ≥ s.cap - 1 then { s with cap := s.cap * 2, mem := s.mem.realloc (s.cap * 2) } else s

/-- One round of the loop that writes the indentation.  /repo/src/repl/repl.c:598-606. -/
def indent1 (s : St) : Res St := do
  let s := grow s
  let m ← s.mem.store s.len ' '
  .ok { s with mem := m, len := s.len + 1 }

/-- The loop that writes the indentation. -/
def indentN : Nat → St → Res St
  | 0, s => .ok s
  | n + 1, s => do indentN n (← indent1 s)

/-- Lines 588-618: the initial state. -/
def init (n ind : Nat) : Res St := do
  let m ← (Mem.malloc 1024 : Mem Char).store 0 NUL
  let s : St := { mem := m, cap := 1024, len := 0, pos := 0, idx := n, saved := none,
                  search := false, pat := [], midx := 0 }
  if ind > 0 then
    let s ← indentN (ind * 4) s
    let m ← s.mem.store s.len NUL
    .ok { s with mem := m, pos := s.len }
  else .ok s

/-- Replacing the line: `buf = strdup(t); buf_size = strlen(buf) + 1; len = pos = strlen(buf)`.
/repo/src/repl/repl.c:658-662,692-694,796-799,835-838,866-869. -/
def recall (t : List Char) (s : St) : St :=
  { s with mem := dup t, cap := t.length + 1, len := t.length, pos := t.length }

/-- Up arrow.  /repo/src/repl/repl.c:643-665. -/
def up (h : List (List Char)) (s : St) : Res St :=
  if s.idx > 0 then do
    let s ← if s.idx = h.length then do
        let t ← cstr s.mem
        .ok { s with saved := some t }
      else .ok s
    let i := s.idx - 1
    match h[i]? with
    | some t => .ok (recall t { s with idx := i })
    | none => .ok { s with idx := i }
  else .ok s

/-- Down arrow.  /repo/src/repl/repl.c:667-696. -/
def down (h : List (List Char)) (s : St) : Res St :=
  if s.idx < h.length then
    let i := s.idx + 1
    if i = h.length then .ok (recall (s.saved.getD []) { s with idx := i })
    else match h[i]? with
      | some t => .ok (recall t { s with idx := i })
      | none => .ub
  else .ok s

/-- The two bytes after an escape.  /repo/src/repl/repl.c:641-722. -/
def escape (h : List (List Char)) (a b : Char) (s : St) : Res St :=
  if a = '[' then
    if b = 'A' then up h s
    else if b = 'B' then down h s
    else if b = 'C' then .ok (if s.pos < s.len then { s with pos := s.pos + 1 } else s)
    else if b = 'D' then .ok (if s.pos > 0 then { s with pos := s.pos - 1 } else s)
    else if b = 'H' then .ok { s with pos := 0 }
    else if b = 'F' then .ok { s with pos := s.len }
    else .ok s
  else .ok s

/-- The loop that looks for the text in older entries: the entries below `n`, the latest first.
/repo/src/repl/repl.c:780-787,826-833,857-864. -/
def findBack (h : List (List Char)) (p : List Char) : Nat → Option Nat
  | 0 => none
  | i + 1 => if strstr (h.getD i []) p then some i else findBack h p i

/-- A search among the entries below `n`, and its effect.  /repo/src/repl/repl.c:773-802,824-842. -/
def search (h : List (List Char)) (n : Nat) (s : St) : St :=
  match findBack h s.pat n with
  | some i => recall (h.getD i []) { s with midx := i, idx := i }
  | none => s

/-- The keywords.  /repo/src/repl/repl.c:165-170. -/
def keywords : List String :=
  ["fn", "struct", "var", "let", "def", "const", "return", "if",
   "else", "for", "while", "do", "switch", "case", "default", "break",
   "continue", "typedef", "enum", "union", "sizeof", "typeof", "import", "include",
   "defer", "guard", "match", "impl", "trait", "comptime", "asm", "plugin",
   "true", "false", "null", "NULL"]

/-- The commands.  /repo/src/repl/repl.c:560-563. -/
def commands : List String :=
  [":help", ":reset", ":imports", ":vars", ":funcs", ":structs", ":history", ":type",
   ":time", ":c", ":doc", ":run", ":edit", ":save", ":load", ":watch",
   ":unwatch", ":undo", ":delete", ":clear", ":quit"]

/-- The bytes a word to complete is made of.  /repo/src/repl/repl.c:527-528. -/
def wordChar (c : Char) : Bool := c.isAlphanum || c == '_' || c == ':' || c == '!'

/-- The loop that finds the start of the word: `t` are the bytes before the cursor, the nearest
first.  /repo/src/repl/repl.c:526-531. -/
def wordBack : List Char → List Char
  | [] => []
  | c :: t => if wordChar c then c :: wordBack t else []

/-- The words that start with `p`, in the order of the table.  /repo/src/repl/repl.c:551-558. -/
def starting (p : List Char) (ws : List String) : List (List Char) :=
  (ws.map String.toList).filter (fun w => p.isPrefixOf w)

/-- `repl_complete` on the bytes before the cursor.  /repo/src/repl/repl.c:524-582. -/
def complete (before : List Char) : Option (List Char) :=
  let p := (wordBack before.reverse).reverse
  if p.length = 0 then none
  else if p.length ≥ 255 then none
  else
    let ms := starting p keywords ++ (if p.head? = some ':' then starting p commands else [])
    match ms with
    | [w] => some (w.drop p.length)
    | _ => none

/-- The bytes before the cursor, as `repl_complete` reads them. -/
def loadN (m : Mem Char) : Nat → Res (List Char)
  | 0 => .ok []
  | n + 1 => do
    let t ← loadN m n
    let c ← m.load n
    .ok (t ++ [c])

/-- Tab.  /repo/src/repl/repl.c:755-771. -/
def tab (s : St) : Res St := do
  let before ← loadN s.mem s.pos
  match complete before with
  | none => .ok s
  | some w =>
    if s.len + w.length < s.cap - 1 then do
      let m ← s.mem.memmove (s.pos + w.length) s.pos (s.len - s.pos + 1)
      let m ← m.memcpy s.pos (dup w) 0 w.length
      .ok { s with mem := m, len := s.len + w.length, pos := s.pos + w.length }
    else .ok s

/-- Backspace.  /repo/src/repl/repl.c:724-732. -/
def back (s : St) : Res St :=
  if s.pos > 0 then do
    let m ← s.mem.memmove (s.pos - 1) s.pos (s.len - s.pos + 1)
    .ok { s with mem := m, len := s.len - 1, pos := s.pos - 1 }
  else .ok s

/-- A printable byte outside a search.  /repo/src/repl/repl.c:921-932. -/
def put (c : Char) (s : St) : Res St := do
  let s := grow s
  let m ← s.mem.memmove (s.pos + 1) s.pos (s.len - s.pos + 1)
  let m ← m.store s.pos c
  .ok { s with mem := m, len := s.len + 1, pos := s.pos + 1 }

/-- Ctrl-R.  /repo/src/repl/repl.c:765-802. -/
def ctrlR (h : List (List Char)) (s : St) : St :=
  let s := if s.search then s else { s with search := true, pat := [], midx := h.length }
  search h (min s.midx h.length) s

/-- A byte during a search, other than those the tests before line 804 take: the branches for
backspace, enter, escape and Ctrl-C at lines 806-871 are not reachable, because lines 724-749 and
629 come first.  /repo/src/repl/repl.c:804-879. -/
def searchByte (h : List (List Char)) (c : Char) (s : St) : St :=
  if c = '\x07' then { s with search := false }
  else if !iscntrl c then
    if s.pat.length < 255 then
      search h h.length { s with pat := s.pat ++ [c] }
    else s
  else s

/-- What a byte leads to: going on, or the end of the function with a line or with `NULL`. -/
inductive Act where
  | go (s : St)
  | enter (s : St)
  | ret (r : Option (List Char))
  deriving DecidableEq, Repr

/-- A byte other than escape.  /repo/src/repl/repl.c:724-936. -/
def byte (h : List (List Char)) (c : Char) (s : St) : Res Act :=
  if c = '\x7f' ∨ c = '\x08' then do .ok (.go (← back s))
  else if c = '\r' ∨ c = '\n' then .ok (.enter s)
  else if c = '\x03' then .ok (.ret (some []))
  else if c = '\x04' then .ok (if s.len = 0 then .ret none else .go s)
  else if c = '\t' then do .ok (.go (← tab s))
  else if c = '\x12' then .ok (.go (ctrlR h s))
  else if s.search then .ok (.go (searchByte h c s))
  else if c = '\x01' then .ok (.go { s with pos := 0 })
  else if c = '\x05' then .ok (.go { s with pos := s.len })
  else if c = '\x0c' then .ok (.go s)
  else if c = '\x15' then
    if s.pos > 0 then do
      let m ← s.mem.memmove 0 s.pos (s.len - s.pos + 1)
      .ok (.go { s with mem := m, len := s.len - s.pos, pos := 0 })
    else .ok (.go s)
  else if c = '\x0b' then do
    let m ← s.mem.store s.pos NUL
    .ok (.go { s with mem := m, len := s.pos })
  else if c = '\x0e' then .ok (.ret (some ":reset".toList))
  else if !iscntrl c then do .ok (.go (← put c s))
  else .ok (.go s)

/-- `return buf`, read by the caller as a C string.  /repo/src/repl/repl.c:960-969. -/
def finish (s : St) (rest : List Char) : Res (Option (List Char) × List Char) := do
  let t ← cstr s.mem
  .ok (some t, rest)

/-- The loop over the bytes of the terminal; the bytes not read are handed back.
/repo/src/repl/repl.c:621-958. -/
def loop (h : List (List Char)) : List Char → St → Res (Option (List Char) × List Char)
  | [], s => finish s []
  | c :: r, s =>
    if c = ESC then
      match r with
      | [] => finish s []
      | [_] => finish s []
      | a :: b :: r' =>
        match escape h a b s with
        | .ok s' => loop h r' s'
        | .panic => .panic
        | .ub => .ub
    else
      match byte h c s with
      | .ok (.go s') => loop h r s'
      | .ok (.enter s') => finish s' r
      | .ok (.ret o) => .ok (o, r)
      | .panic => .panic
      | .ub => .ub

/-- `repl_readline(prompt, history, history_len, indent_level)`.  /repo/src/repl/repl.c:584-970. -/
def readline (h : List (List Char)) (ind : Nat) (input : List Char) :
    Res (Option (List Char) × List Char) := do
  loop h input (← init h.length ind)

/-! ## What a line editor does -/

namespace Spec

/-- The keys. -/
inductive Key where
  | char (c : Char)
  | left
  | right
  | home
  | fin
  | first
  | last
  | backspace
  | toStart
  | toEnd
  | older
  | newer
  | lookup
  | leave
  deriving DecidableEq, Repr

/-- The bytes a terminal sends for a key. -/
def bytes : Key → List Char
  | .char c => [c]
  | .left => ['\x1b', '[', 'D']
  | .right => ['\x1b', '[', 'C']
  | .home => ['\x1b', '[', 'H']
  | .fin => ['\x1b', '[', 'F']
  | .first => ['\x01']
  | .last => ['\x05']
  | .backspace => ['\x7f']
  | .toStart => ['\x15']
  | .toEnd => ['\x0b']
  | .older => ['\x1b', '[', 'A']
  | .newer => ['\x1b', '[', 'B']
  | .lookup => ['\x12']
  | .leave => ['\x07']

/-- A character key is a printable byte. -/
def Key.ok : Key → Prop
  | .char c => 32 ≤ c.toNat ∧ c.toNat ≠ 127
  | _ => True

/-- A line being edited: what is before the cursor, what is after it; which entry of the history
is shown (the number of entries when it is the line being typed); the line that was being typed
when the history was entered; the text looked for, and how far the search has come. -/
structure Ed where
  before : List Char
  after : List Char
  at_ : Nat
  draft : Option (List Char)
  look : Option (List Char × Nat)
  deriving DecidableEq, Repr

/-- The line. -/
def Ed.line (e : Ed) : List Char := e.before ++ e.after

/-- Showing another line, the cursor at its end. -/
def Ed.swap (e : Ed) (t : List Char) : Ed := { e with before := t, after := [] }

/-- `i` is the latest entry below `n` that contains `p`. -/
def Latest (h : List (List Char)) (p : List Char) (n i : Nat) : Prop :=
  i < n ∧ (∃ t, h[i]? = some t ∧ p <:+: t) ∧ ∀ j t, i < j → j < n → h[j]? = some t → ¬ p <:+: t

/-- The effect of a search for `p` below `n`. -/
inductive Looked (h : List (List Char)) (p : List Char) (n : Nat) (m : Nat) (e : Ed) : Ed → Prop
  | found {i : Nat} {t : List Char} : Latest h p n i → h[i]? = some t →
      Looked h p n m e { e with before := t, after := [], at_ := i, look := some (p, i) }
  | missed : (∀ i, ¬ Latest h p n i) → Looked h p n m e { e with look := some (p, m) }

/-- What a key does. -/
inductive Step (h : List (List Char)) : Key → Ed → Ed → Prop
  | char {c : Char} {e : Ed} : e.look = none →
      Step h (.char c) e { e with before := e.before ++ [c] }
  | left {l r : List Char} {c : Char} {a : Nat} {d} {k} :
      Step h .left ⟨l ++ [c], r, a, d, k⟩ ⟨l, c :: r, a, d, k⟩
  | leftStop {r : List Char} {a : Nat} {d} {k} :
      Step h .left ⟨[], r, a, d, k⟩ ⟨[], r, a, d, k⟩
  | right {l r : List Char} {c : Char} {a : Nat} {d} {k} :
      Step h .right ⟨l, c :: r, a, d, k⟩ ⟨l ++ [c], r, a, d, k⟩
  | rightStop {l : List Char} {a : Nat} {d} {k} :
      Step h .right ⟨l, [], a, d, k⟩ ⟨l, [], a, d, k⟩
  | home {e : Ed} : Step h .home e { e with before := [], after := e.line }
  | fin {e : Ed} : Step h .fin e { e with before := e.line, after := [] }
  | first {e : Ed} : e.look = none → Step h .first e { e with before := [], after := e.line }
  | last {e : Ed} : e.look = none → Step h .last e { e with before := e.line, after := [] }
  | backspace {l r : List Char} {c : Char} {a : Nat} {d} :
      Step h .backspace ⟨l ++ [c], r, a, d, none⟩ ⟨l, r, a, d, none⟩
  | backStop {r : List Char} {a : Nat} {d} :
      Step h .backspace ⟨[], r, a, d, none⟩ ⟨[], r, a, d, none⟩
  | backLook {e e' : Ed} {p : List Char} {c : Char} {m : Nat} : e.look = some (p ++ [c], m) →
      Looked h p h.length h.length e e' → Step h .backspace e e'
  | backLookStop {e : Ed} {m : Nat} : e.look = some ([], m) → Step h .backspace e e
  | toStart {e : Ed} : e.look = none → Step h .toStart e { e with before := [] }
  | toEnd {e : Ed} : e.look = none → Step h .toEnd e { e with after := [] }
  | older {e : Ed} {i : Nat} {t : List Char} : e.at_ = i + 1 → h[i]? = some t →
      Step h .older e
        { e with before := t, after := [], at_ := i,
                 draft := if e.at_ = h.length then some e.line else e.draft }
  | olderStop {e : Ed} : e.at_ = 0 → Step h .older e e
  | newer {e : Ed} {t : List Char} : e.at_ < h.length → h[e.at_ + 1]? = some t →
      Step h .newer e { e with before := t, after := [], at_ := e.at_ + 1 }
  | newerDraft {e : Ed} : e.at_ < h.length → e.at_ + 1 = h.length →
      Step h .newer e { e with before := e.draft.getD [], after := [], at_ := e.at_ + 1 }
  | newerStop {e : Ed} : e.at_ = h.length → Step h .newer e e
  | lookup {e e' : Ed} : e.look = none → Looked h [] h.length h.length e e' → Step h .lookup e e'
  | lookAgain {e e' : Ed} {p : List Char} {m : Nat} : e.look = some (p, m) →
      Looked h p m m e e' → Step h .lookup e e'
  | lookChar {e e' : Ed} {p : List Char} {m : Nat} {c : Char} : e.look = some (p, m) →
      p.length < 255 → Looked h (p ++ [c]) h.length m e e' → Step h (.char c) e e'
  | leave {e : Ed} : Step h .leave e { e with look := none }

/-- What a sequence of keys does. -/
inductive Keys (h : List (List Char)) : List Key → Ed → Ed → Prop
  | nil {e : Ed} : Keys h [] e e
  | cons {k : Key} {ks : List Key} {e e' e'' : Ed} : Step h k e e' → Keys h ks e' e'' →
      Keys h (k :: ks) e e''

/-- No backspace while a search is going on (the code does not take it off the text looked for). -/
inductive NoBackInSearch (h : List (List Char)) : List Key → Ed → Prop
  | nil {e : Ed} : NoBackInSearch h [] e
  | cons {k : Key} {ks : List Key} {e : Ed} : (k = .backspace → e.look = none) →
      (∀ e', Step h k e e' → NoBackInSearch h ks e') → NoBackInSearch h (k :: ks) e

/-- The editor at the start: the indentation, the cursor after it. -/
def start (h : List (List Char)) (ind : Nat) : Ed :=
  ⟨List.replicate (4 * ind) ' ', [], h.length, none, none⟩

/-- The words that can be completed: the keywords and the commands of the REPL. -/
def vocabulary : List (List Char) := (keywords ++ commands).map String.toList

/-- `w` completes the line before the cursor: the word there (a longest run of letters, digits and
`_ : !`) is the beginning of exactly one word of the vocabulary, and `w` is the rest of it. -/
def Completes (b w : List Char) : Prop :=
  ∃ u p : List Char, b = u ++ p ∧ p ≠ [] ∧
    (∀ c ∈ p, c.isAlphanum ∨ c ∈ ['_', ':', '!']) ∧
    (∀ c, u.getLast? = some c → ¬ (c.isAlphanum ∨ c ∈ ['_', ':', '!'])) ∧
    p.length < 255 ∧ p ++ w ∈ vocabulary ∧ ∀ v ∈ vocabulary, p <+: v → v = p ++ w

/-- Keys that stay on the line being typed. -/
def Key.typing : Key → Prop
  | .older | .newer | .lookup | .leave => False
  | _ => True

end Spec

end Verif.LineEdit
