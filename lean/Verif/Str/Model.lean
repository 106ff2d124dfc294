import Verif.Vec.Model

/-!
# `std/string.zc` — heap strings

Model of `String` (std/string.zc:5-351) on top of the model of `Vec<char>`.  A `char` is a byte;
its signedness does not matter anywhere (the masks of `_utf8_seq_len` ignore sign extension).
A `char*` argument is the memory block it points into.  `usize` additions of `substring` are
taken modulo 2^64, and the `(int)` conversion of `ends_with` modulo 2^32.  The loop variables
declared `let i = 0` have C type `int`; the model does not reproduce their overflow for texts of
2^31 bytes and more.  Ownership bookkeeping (`forget`, `free`) of temporaries is not modelled.
-/

namespace Verif.Str
open Verif

/-- C `char`. -/
abbrev Byte := UInt8

/-- `struct String` (std/string.zc:5-7). -/
abbrev Str := Vec.Vec Byte

/-- Memory image of a C string literal with the given bytes. -/
def cmem (bs : List Byte) : Mem Byte := bs.map some ++ [some 0]

/-! ### libc functions used -/

/-- C `strlen`: number of bytes before the first zero byte; running off the block or over an
indeterminate byte is undefined. -/
def strlen : Mem Byte → Res Nat
  | some c :: m =>
    if c = 0 then .ok 0
    else do
      let n ← strlen m
      .ok (n + 1)
  | _ => .ub

/-- C `strcmp(a, b) == 0`. -/
def strcmpEq : Mem Byte → Mem Byte → Res Bool
  | some x :: a, some y :: b =>
    if x ≠ y then .ok false else if x = 0 then .ok true else strcmpEq a b
  | _, _ => .ub

/-- C `strncmp(a, b, n) == 0`. -/
def strncmpEq : Nat → Mem Byte → Mem Byte → Res Bool
  | 0, _, _ => .ok true
  | n + 1, some x :: a, some y :: b =>
    if x ≠ y then .ok false else if x = 0 then .ok true else strncmpEq n a b
  | _, _, _ => .ub

/-! ### construction and appending -/

/-- `for (i..i+n) v.push(m[i])` (std/string.zc:14-16, 63-65, 74-76). -/
def pushFrom (m : Mem Byte) : Nat → Nat → Str → Res Str
  | 0, _, v => .ok v
  | n + 1, i, v => do
    let c ← Mem.load m i
    let v ← Vec.push v c
    pushFrom m n (i + 1) v

/-- `String::new` and `String::from` (std/string.zc:10-32). -/
def new (m : Mem Byte) : Res Str := do
  let len ← strlen m
  let v ← pushFrom m len 0 Vec.new
  Vec.push v 0

/-- Dropping the terminator: `if (len > 0) len = len - 1` (std/string.zc:48-50, 59-61). -/
def chop (s : Str) : Str := if s.len > 0 then ⟨s.buf, s.len - 1, s.cap⟩ else s

/-- Loop of `append` for a distinct argument (std/string.zc:52-55). -/
def appendLoop (other : Str) : Nat → Nat → Str → Res Str
  | 0, _, v => .ok v
  | n + 1, i, v => do
    let c ← Vec.get other i
    let v ← Vec.push v c
    appendLoop other n (i + 1) v

/-- `String::append` with `other` a different object (std/string.zc:46-56). -/
def append (self other : Str) : Res Str := appendLoop other other.len 0 (chop self)

/-- Loop of `append` when `other` is `self`: the vector read from is the one being pushed to. -/
def appendSelfLoop : Nat → Nat → Str → Res Str
  | 0, _, v => .ok v
  | n + 1, i, v => do
    let c ← Vec.get v i
    let v ← Vec.push v c
    appendSelfLoop n (i + 1) v

/-- `s.append(&s)` (std/string.zc:46-56): the length read on line 52 is the shortened one. -/
def appendSelf (self : Str) : Res Str :=
  let s := chop self
  appendSelfLoop s.len 0 s

/-- `String::append_c` and `append_c_ptr` (std/string.zc:58-78). -/
def appendC (self : Str) (m : Mem Byte) : Res Str := do
  let s := chop self
  let len ← strlen m
  let v ← pushFrom m len 0 s
  Vec.push v 0

/-- `String::add` (std/string.zc:80-90), the `+` operator. -/
def add (self other : Str) : Res Str := do
  let s ← new self.buf
  append s other

/-- `String::eq` (std/string.zc:92-95). -/
def eq (self other : Str) : Res Bool := strcmpEq self.buf other.buf

/-- `String::eq_str` (std/string.zc:97-100). -/
def eqStr (self : Str) (m : Mem Byte) : Res Bool := strcmpEq self.buf m

/-- `String::length` (std/string.zc:102-105). -/
def length (self : Str) : Nat := if self.len = 0 then 0 else self.len - 1

/-- Reading the text through `c_str()` (std/string.zc:34-36), e.g. for printing: the bytes
before the first zero byte. -/
def readC : Mem Byte → Res (List Byte)
  | some c :: m =>
    if c = 0 then .ok []
    else do
      let t ← readC m
      .ok (c :: t)
  | _ => .ub

/-- Copy loop of `substring` (std/string.zc:112-114); index arithmetic modulo 2^64. -/
def substringLoop (self : Str) (start : Nat) : Nat → Nat → Str → Res Str
  | 0, _, v => .ok v
  | n + 1, i, v => do
    let c ← Vec.get self ((start + i) % 2 ^ 64)
    let v ← Vec.push v c
    substringLoop self start n (i + 1) v

/-- `String::substring` (std/string.zc:107-123). -/
def substring (self : Str) (start len : Nat) : Res Str :=
  if (start + len) % 2 ^ 64 > length self then .panic
  else do
    let v ← substringLoop self start len 0 Vec.new
    Vec.push v 0

/-- Loop of `find` (std/string.zc:127-131): `n` iterations remain. -/
def findLoop (self : Str) (target : Byte) : Nat → Nat → Res (Option Nat)
  | 0, _ => .ok none
  | n + 1, i => do
    let c ← Vec.get self i
    if c = target then .ok (some i) else findLoop self target n (i + 1)

/-- `String::find` (std/string.zc:125-133). -/
def find (self : Str) (target : Byte) : Res (Option Nat) := findLoop self target (length self) 0

/-- `String::contains` (std/string.zc:148-150). -/
def contains (self : Str) (target : Byte) : Res Bool := do
  let o ← find self target
  .ok o.isSome

/-- `String::starts_with` (std/string.zc:152-157). -/
def startsWith (self : Str) (p : Mem Byte) : Res Bool := do
  let plen ← strlen p
  if plen > length self then .ok false else strncmpEq plen self.buf p

/-- `String::ends_with` (std/string.zc:159-166); a negative `offset` points before the block. -/
def endsWith (self : Str) (p : Mem Byte) : Res Bool := do
  let slen ← strlen p
  if slen > length self then .ok false
  else
    let offset := (length self - slen) % 2 ^ 32
    if offset ≥ 2 ^ 31 then .ub else strcmpEq (self.buf.drop offset) p

/-- `String::reserve` (std/string.zc:168-170). -/
def reserve (self : Str) (cap : Nat) : Str := Vec.growToFit self (cap + 1)

/-! ### UTF-8 -/

/-- `String::_utf8_seq_len` (std/string.zc:176-183). -/
def seqLen (c : Byte) : Nat :=
  let b := c.toNat
  if b &&& 0x80 = 0 then 1
  else if b &&& 0xE0 = 0xC0 then 2
  else if b &&& 0xF0 = 0xE0 then 3
  else if b &&& 0xF8 = 0xF0 then 4
  else 1

theorem seqLen_pos (c : Byte) : 0 < seqLen c := by
  unfold seqLen; dsimp only; split
  · omega
  · split
    · omega
    · split
      · omega
      · split <;> omega

/-- Loop of `utf8_len` (std/string.zc:189-193). -/
def utf8LenLoop (self : Str) (len i count : Nat) : Res Nat :=
  if i < len then do
    let c ← Vec.get self i
    have := seqLen_pos c
    utf8LenLoop self len (i + seqLen c) (count + 1)
  else .ok count
termination_by len - i

/-- `String::utf8_len` (std/string.zc:185-195). -/
def utf8Len (self : Str) : Res Nat := utf8LenLoop self (length self) 0 0

/-- Loop of `utf8_at` (std/string.zc:201-211). -/
def utf8AtLoop (self : Str) (idx len i count : Nat) : Res Str :=
  if i < len then do
    let c ← Vec.get self i
    have := seqLen_pos c
    if count = idx then substring self i (seqLen c)
    else utf8AtLoop self idx len (i + seqLen c) (count + 1)
  else new (cmem [])
termination_by len - i

/-- `String::utf8_at` (std/string.zc:197-213). -/
def utf8At (self : Str) (idx : Nat) : Res Str := utf8AtLoop self idx (length self) 0 0

/-- Loop of `utf8_substr` (std/string.zc:226-251): returns `found_start`, `byte_start` and
`byte_len`. -/
def utf8SubstrLoop (self : Str) (startIdx num len : Nat) (i count : Nat) (found : Bool)
    (bs bl : Nat) : Res (Bool × Nat × Nat) :=
  if i < len then
    if !found && count ≠ startIdx then do
      let c ← Vec.get self i
      have := seqLen_pos c
      utf8SubstrLoop self startIdx num len (i + seqLen c) (count + 1) found bs bl
    else
      let bs' := if !found then i else bs
      let count' := if !found then 0 else count
      if count' < num then do
        let c ← Vec.get self i
        have := seqLen_pos c
        utf8SubstrLoop self startIdx num len (i + seqLen c) (count' + 1) true bs' (bl + seqLen c)
      else .ok (true, bs', bl)
  else .ok (found, bs, bl)
termination_by len - i

/-- `String::utf8_substr` (std/string.zc:215-256). -/
def utf8Substr (self : Str) (startIdx num : Nat) : Res Str :=
  if num = 0 then new (cmem [])
  else do
    let (found, bs, bl) ← utf8SubstrLoop self startIdx num (length self) 0 0 false 0 0
    if !found then new (cmem []) else substring self bs bl

/-! ### split, trim, replace -/

/-- Loop of `split` (std/string.zc:265-272): `n` iterations remain. -/
def splitLoop (self : Str) (delim : Byte) : Nat → Nat → Nat → List Str → Res (Nat × List Str)
  | 0, _, start, parts => .ok (start, parts)
  | n + 1, i, start, parts => do
    let c ← Vec.get self i
    if c = delim then do
      let p ← substring self start (i - start)
      splitLoop self delim n (i + 1) (i + 1) (parts ++ [p])
    else splitLoop self delim n (i + 1) start parts

/-- `String::split` (std/string.zc:257-280).  The result vector of strings is a list here
(`Vec` itself is the subject of C01). -/
def split (self : Str) (delim : Byte) : Res (List Str) :=
  let len := length self
  if len = 0 then .ok []
  else do
    let (start, parts) ← splitLoop self delim len 0 0 []
    if start ≤ len then do
      let p ← substring self start (len - start)
      .ok (parts ++ [p])
    else .ok parts

/-- The test for a blank in `trim` (std/string.zc:290, 303). -/
def blank (c : Byte) : Bool := c == 32 || c == 9 || c == 10 || c == 13

/-- First loop of `trim` (std/string.zc:288-294): `n` positions remain. -/
def trimStart (self : Str) : Nat → Nat → Res Nat
  | 0, start => .ok start
  | n + 1, start => do
    let c ← Vec.get self start
    if blank c then trimStart self n (start + 1) else .ok start

/-- Second loop of `trim` (std/string.zc:301-307): `n = end - start` positions remain. -/
def trimEnd (self : Str) (start : Nat) : Nat → Res Nat
  | 0 => .ok start
  | n + 1 => do
    let c ← Vec.get self (start + n)
    if blank c then trimEnd self start n else .ok (start + n + 1)

/-- `String::trim` (std/string.zc:282-310). -/
def trim (self : Str) : Res Str := do
  let len := length self
  let start ← trimStart self len 0
  if start = len then new (cmem [])
  else do
    let e ← trimEnd self start (len - start)
    substring self start (e - start)

/-- Comparison loop of `replace` (std/string.zc:326-331): `n` positions remain. -/
def matchAt (self : Str) (target : Mem Byte) (i : Nat) : Nat → Nat → Res Bool
  | 0, _ => .ok true
  | n + 1, k => do
    let a ← Vec.get self (i + k)
    let b ← Mem.load target k
    if a ≠ b then .ok false else matchAt self target i n (k + 1)

/-- `is_match` (std/string.zc:322-331). -/
def isMatch (self : Str) (target : Mem Byte) (tLen sLen i : Nat) : Res Bool :=
  if i + tLen ≤ sLen then matchAt self target i tLen 0 else .ok false

/-- Main loop of `replace` (std/string.zc:320-349).  The test `0 < tLen` always holds here
(line 313) and only serves termination. -/
def replaceLoop (self : Str) (target repl : Mem Byte) (tLen sLen i : Nat) (result : Str) : Res Str :=
  if i < sLen then do
    let m ← isMatch self target tLen sLen i
    if h : m = true ∧ 0 < tLen then do
      let r ← new repl
      let result ← append result r
      replaceLoop self target repl tLen sLen (i + tLen) result
    else do
      let c ← Vec.get self i
      let v ← Vec.push Vec.new c
      let v ← Vec.push v 0
      let ch ← new v.buf
      let result ← append result ch
      replaceLoop self target repl tLen sLen (i + 1) result
  else .ok result
termination_by sLen - i

/-- `String::replace` (std/string.zc:312-351). -/
def replace (self : Str) (target repl : Mem Byte) : Res Str := do
  let tLen ← strlen target
  if tLen = 0 then substring self 0 (length self)
  else do
    let result ← new (cmem [])
    replaceLoop self target repl tLen (length self) 0 result

/-! ### histories -/

/-- The object built by `String::new("")` (std/string.zc:10-28); `new_nil` checks it. -/
def empty : Str := ⟨some 0 :: List.replicate 7 none, 1, 8⟩

theorem new_nil : new (cmem []) = .ok empty := rfl

/-- Client calls on string variables; results of constructors go to variable `k`. -/
inductive Op where
  | new (k : Nat) (bs : List Byte)
  | append (i j : Nat)
  | appendC (i : Nat) (bs : List Byte)
  | add (i j k : Nat)
  | eq (i j : Nat)
  | eqStr (i : Nat) (bs : List Byte)
  | length (i : Nat)
  | text (i : Nat)
  | reserve (i n : Nat)
  | substring (i start len k : Nat)
  | find (i : Nat) (c : Byte)
  | contains (i : Nat) (c : Byte)
  | startsWith (i : Nat) (bs : List Byte)
  | endsWith (i : Nat) (bs : List Byte)
  | trim (i k : Nat)
  | replace (i : Nat) (target repl : List Byte) (k : Nat)

/-- Values returned to the client. -/
inductive Ret where
  | unit
  | bool (b : Bool)
  | nat (n : Nat)
  | optNat (n : Option Nat)
  | bytes (bs : List Byte)
  deriving DecidableEq, Repr

open Verif.Vec (upd)

/-- One client call. -/
def step (s : Nat → Str) : Op → Res ((Nat → Str) × Ret)
  | .new k bs => do let r ← new (cmem bs); pure (upd s k r, .unit)
  | .append i j => do
      let r ← if i = j then appendSelf (s i) else append (s i) (s j)
      pure (upd s i r, .unit)
  | .appendC i bs => do let r ← appendC (s i) (cmem bs); pure (upd s i r, .unit)
  | .add i j k => do let r ← add (s i) (s j); pure (upd s k r, .unit)
  | .eq i j => do let b ← eq (s i) (s j); pure (s, .bool b)
  | .eqStr i bs => do let b ← eqStr (s i) (cmem bs); pure (s, .bool b)
  | .length i => pure (s, .nat (length (s i)))
  | .text i => do let t ← readC (s i).buf; pure (s, .bytes t)
  | .reserve i n => pure (upd s i (reserve (s i) n), .unit)
  | .substring i a n k => do let r ← substring (s i) a n; pure (upd s k r, .unit)
  | .find i c => do let o ← find (s i) c; pure (s, .optNat o)
  | .contains i c => do let b ← contains (s i) c; pure (s, .bool b)
  | .startsWith i bs => do let b ← startsWith (s i) (cmem bs); pure (s, .bool b)
  | .endsWith i bs => do let b ← endsWith (s i) (cmem bs); pure (s, .bool b)
  | .trim i k => do let r ← trim (s i); pure (upd s k r, .unit)
  | .replace i t r k => do let x ← replace (s i) (cmem t) (cmem r); pure (upd s k x, .unit)

/-- A history of calls. -/
def run (s : Nat → Str) : List Op → Res (List Ret)
  | [] => .ok []
  | op :: ops => do
      let (s, r) ← step s op
      let rs ← run s ops
      pure (r :: rs)

namespace Spec

/-- The text a C string literal denotes: the bytes before the first zero byte. -/
def lit (bs : List Byte) : List Byte := bs.takeWhile (· ≠ 0)

/-- Removing leading and trailing blanks. -/
def trim (t : List Byte) : List Byte :=
  ((t.dropWhile blank).reverse.dropWhile blank).reverse

/-- Substituting the leftmost non-overlapping occurrences of a non-empty target. -/
def replace (target repl : List Byte) : Nat → List Byte → List Byte
  | 0, t => t
  | _, [] => []
  | n + 1, c :: t =>
    if target.isPrefixOf (c :: t) then repl ++ replace target repl n ((c :: t).drop target.length)
    else c :: replace target repl n t

/-- The same calls on byte sequences; `none` is a panic. -/
def step (s : Nat → List Byte) : Op → Option ((Nat → List Byte) × Ret)
  | .new k bs => some (upd s k (lit bs), .unit)
  | .append i j => some (upd s i (s i ++ s j), .unit)
  | .appendC i bs => some (upd s i (s i ++ lit bs), .unit)
  | .add i j k => some (upd s k (s i ++ s j), .unit)
  | .eq i j => some (s, .bool (decide (s i = s j)))
  | .eqStr i bs => some (s, .bool (decide (s i = lit bs)))
  | .length i => some (s, .nat (s i).length)
  | .text i => some (s, .bytes (s i))
  | .reserve _ _ => some (s, .unit)
  | .substring i a n k =>
    if a + n ≤ (s i).length then some (upd s k (((s i).drop a).take n), .unit) else none
  | .find i c => some (s, .optNat ((s i).findIdx? (· == c)))
  | .contains i c => some (s, .bool (decide (c ∈ s i)))
  | .startsWith i bs => some (s, .bool (decide (lit bs <+: s i)))
  | .endsWith i bs => some (s, .bool (decide (lit bs <:+ s i)))
  | .trim i k => some (upd s k (trim (s i)), .unit)
  | .replace i t r k =>
    some (upd s k (if lit t = [] then s i else replace (lit t) (lit r) (s i).length (s i)), .unit)

/-- Returned values of a history. -/
def run (s : Nat → List Byte) : List Op → Res (List Ret)
  | [] => .ok []
  | op :: ops =>
    match step s op with
    | none => .panic
    | some (s', r) =>
      match run s' ops with
      | .ok rs => .ok (r :: rs)
      | .panic => .panic
      | .ub => .ub

/-- What the refinement theorem excludes: appending a string to itself, and, for the calls
whose arithmetic depends on it, texts of 2^31 bytes or more and arguments that are not 64-bit
numbers. -/
def Guard1 (s : Nat → List Byte) : Op → Prop
  | .append i j => i ≠ j
  | .substring i a n _ => a < 2 ^ 64 ∧ n < 2 ^ 64 ∧ (s i).length < 2 ^ 31
  | .endsWith i _ => (s i).length < 2 ^ 31
  | .trim i _ => (s i).length < 2 ^ 31
  | .replace i _ _ _ => (s i).length < 2 ^ 31
  | _ => True

instance (s : Nat → List Byte) (op : Op) : Decidable (Guard1 s op) := by
  cases op <;> unfold Guard1 <;> infer_instance

/-- `Guard1` at every call of a history. -/
def Guard (s : Nat → List Byte) : List Op → Prop
  | [] => True
  | op :: ops => Guard1 s op ∧ (match step s op with
      | some (s', _) => Guard s' ops
      | none => True)

instance decGuard (s : Nat → List Byte) : (ops : List Op) → Decidable (Guard s ops)
  | [] => inferInstanceAs (Decidable True)
  | op :: ops => by
    unfold Guard
    cases step s op with
    | none => infer_instance
    | some p =>
      have := decGuard p.1 ops
      infer_instance

end Spec
end Verif.Str
