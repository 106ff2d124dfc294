import Verif.Str.Model

/-!
# Model of `std/net/url.zc`

Pointers into the URL text are memory images starting at that position.
-/

namespace Verif.Url
open Verif Verif.Str

/-- C `strchr` for a non-zero byte: offset of the first occurrence before the terminator. -/
def strchr : Mem Byte → Byte → Res (Option Nat)
  | some x :: m, c =>
      if x = c then .ok (some 0)
      else if x = 0 then .ok none
      else do
        let r ← strchr m c
        .ok (r.map (· + 1))
  | _, _ => .ub

/-- C `strstr`: offset of the first occurrence of a text of length `n`. -/
def strstr (n : Nat) (pat : Mem Byte) : Mem Byte → Res (Option Nat)
  | some x :: m => do
      let b ← strncmpEq n (some x :: m) pat
      if b then .ok (some 0)
      else if x = 0 then .ok none
      else do
        let r ← strstr n pat m
        .ok (r.map (· + 1))
  | _ => .ub

/-- `isspace` in the C locale -/
def isSpace (c : Byte) : Bool := c == 32 || (9 ≤ c && c ≤ 13)

/-- `isdigit` -/
def isDig (c : Byte) : Bool := 48 ≤ c && c ≤ 57

/-- digits read by `atoi` -/
def atoiDigits : Mem Byte → Nat → Res Nat
  | some c :: m, v => if isDig c then atoiDigits m (10 * v + (c.toNat - 48)) else .ok v
  | _, _ => .ub

/-- sign read by `atoi`; a value that does not fit an `int` is undefined (ISO C 7.24.1) -/
def atoiSign : Mem Byte → Res Int
  | some c :: m => do
      let v ← if c = 45 ∨ c = 43 then atoiDigits m 0 else atoiDigits (some c :: m) 0
      if v < 2 ^ 31 then .ok (if c = 45 then -(v : Int) else v) else .ub
  | _ => .ub

/-- C `atoi` -/
def atoi : Mem Byte → Res Int
  | some c :: m => if isSpace c then atoi m else atoiSign (some c :: m)
  | _ => .ub

/-- `strncpy(buf, src, n)` into a fresh block of `n + 1` bytes followed by `buf[n] = 0`
(std/net/url.zc:51-53), for `n` at most the length of the source text. -/
def copyN : Nat → Mem Byte → Res (Mem Byte)
  | 0, _ => .ok [some 0]
  | n + 1, some c :: m => do
      let r ← copyN n m
      .ok (some c :: r)
  | _, _ => .ub

/-- `struct Url` (std/net/url.zc:6-12) -/
structure Url where
  scheme : Str
  host : Str
  port : Int
  path : Str
  query : Str

/-- "://" -/
def sSep : List Byte := [58, 47, 47]
/-- "https" -/
def sHttps : List Byte := [104, 116, 116, 112, 115]

/-- the earlier of the two separators (std/net/url.zc:36-41) -/
def hostEnd (slash q : Option Nat) : Option Nat :=
  match slash, q with
  | none, q => q
  | some a, some b => if b < a then some b else some a
  | some a, none => some a

/-- length of the host part (std/net/url.zc:43-48) -/
def hostLength (he : Option Nat) (rest : Mem Byte) : Res Nat :=
  match he with
  | none => strlen rest
  | some e => .ok e

/-- host and port (std/net/url.zc:59-72) -/
def hostPort (hostStr : Str) (default : Int) : Res (Str × Int) := do
  let parts ← split hostStr 58
  match parts with
  | [a, b] => do
      let h ← trim a
      let p ← atoi b.buf
      .ok (h, p)
  | _ => do
      let h ← new hostStr.buf
      .ok (h, default)

/-- path and query (std/net/url.zc:80-106); `m` points at `host_end` -/
def pathQuery (m : Option (Mem Byte)) : Res (Str × Str) := do
  let path ← new (cmem [47])
  let query ← new (cmem [])
  match m with
  | none => .ok (path, query)
  | some m => do
      let c ← Mem.load m 0
      if c = 47 then do
        let remaining ← new m
        let q ← find remaining 63
        match q with
        | some i => do
            let path ← substring remaining 0 i
            let query ← substring remaining (i + 1) (length remaining - i - 1)
            .ok (path, query)
        | none => do
            let path ← substring remaining 0 (length remaining)
            .ok (path, query)
      else if c = 63 then do
        let query ← new (m.drop 1)
        .ok (path, query)
      else .ok (path, query)

/-- `Url::parse` (std/net/url.zc:17-115); `none` is `Err("Missing scheme")`. -/
def parse (raw : Str) : Res (Option Url) := do
  let u := raw.buf
  let schemeEnd ← strstr 3 (cmem sSep) u
  match schemeEnd with
  | none => .ok none
  | some k => do
      let scheme ← substring raw 0 k
      let rest := u.drop (k + 3)
      let https ← eqStr scheme (cmem sHttps)
      let slash ← strchr rest 47
      let q ← strchr rest 63
      let he := hostEnd slash q
      let hostLen ← hostLength he rest
      let buf ← copyN hostLen rest
      let hostStr ← new buf
      let hp ← hostPort hostStr (if https then 443 else 80)
      let pq ← pathQuery (he.map fun e => rest.drop e)
      .ok (some ⟨scheme, hp.1, hp.2, pq.1, pq.2⟩)

namespace Spec

/-- value of a digit text -/
def decVal (p : List Byte) : Nat := p.foldl (fun v c => 10 * v + (c.toNat - 48)) 0

/-- the pieces of a URL -/
structure Parts where
  scheme : List Byte
  host : List Byte
  port : Option (List Byte)
  path : List Byte
  query : Option (List Byte)

/-- `:port` -/
def portText : Option (List Byte) → List Byte
  | some p => 58 :: p
  | none => []

/-- `?query` -/
def queryText : Option (List Byte) → List Byte
  | some q => 63 :: q
  | none => []

/-- how the pieces are written: `scheme://host[:port][/path][?query]` -/
def write (u : Parts) : List Byte :=
  u.scheme ++ sSep ++ u.host ++ portText u.port ++ u.path ++ queryText u.query

/-- pieces that contain none of the separators that end them -/
structure Ok (u : Parts) : Prop where
  noZero : 0 ∉ write u
  scheme : 58 ∉ u.scheme
  host : ∀ c ∈ u.host, c ≠ 58 ∧ c ≠ 47 ∧ c ≠ 63 ∧ blank c = false
  port : ∀ p, u.port = some p → p ≠ [] ∧ (∀ c ∈ p, isDig c = true) ∧ decVal p < 2 ^ 31
  path : u.path = [] ∨ ∃ r, u.path = 47 :: r
  pathQ : 63 ∉ u.path

/-- port used: the given one, otherwise 443 for https and 80 for anything else -/
def port (u : Parts) : Int :=
  match u.port with
  | some p => decVal p
  | none => if u.scheme = sHttps then 443 else 80

/-- path used: `/` if there is none -/
def path (u : Parts) : List Byte := if u.path = [] then [47] else u.path

end Spec

end Verif.Url
