import Verif.Str.Model

/-!
# `std/encoding/base64.zc` — Base64 encoder

`u32` values stay below 2^24 here, so shifts are taken on `Nat`.  `usize` arithmetic of the
size to reserve is not reduced modulo 2^64.
-/

namespace Verif.Base64
open Verif Verif.Str

/-- The string literal `table` (std/encoding/base64.zc:11). -/
def table : List Byte :=
  [65,66,67,68,69,70,71,72,73,74,75,76,77,78,79,80,81,82,83,84,85,86,87,88,89,90,
   97,98,99,100,101,102,103,104,105,106,107,108,109,110,111,112,113,114,115,116,117,118,119,120,
   121,122,48,49,50,51,52,53,54,55,56,57,43,47]

/-- `table[c]` (std/encoding/base64.zc:45-48 and following). -/
def sym (c : Nat) : Res Byte := Mem.load (cmem table) c

/-- `(x >> k) & 0x3F` (std/encoding/base64.zc:39-42, 56-58, 73-74). -/
def six (x k : Nat) : Nat := (x >>> k) &&& 0x3F

/-- Full group (std/encoding/base64.zc:37-50): four characters and the terminator of `buf`. -/
def group3 (a b c : Byte) : Res (List Byte) := do
  let triple := (a.toNat <<< 16) ||| (b.toNat <<< 8) ||| c.toNat
  let x1 ← sym (six triple 18)
  let x2 ← sym (six triple 12)
  let x3 ← sym (six triple 6)
  let x4 ← sym (triple &&& 0x3F)
  pure [x1, x2, x3, x4]

/-- Two bytes left (std/encoding/base64.zc:54-67). -/
def group2 (a b : Byte) : Res (List Byte) := do
  let triple := (a.toNat <<< 16) ||| (b.toNat <<< 8)
  let x1 ← sym (six triple 18)
  let x2 ← sym (six triple 12)
  let x3 ← sym (six triple 6)
  pure [x1, x2, x3, 61]

/-- One byte left (std/encoding/base64.zc:71-83). -/
def group1 (a : Byte) : Res (List Byte) := do
  let triple := a.toNat <<< 16
  let x1 ← sym (six triple 18)
  let x2 ← sym (six triple 12)
  pure [x1, x2, 61, 61]

/-- The `while` loop (std/encoding/base64.zc:19-85). -/
def loop (data : Mem Byte) (len i : Nat) (out : Str) : Res Str :=
  if i < len then do
    let a ← Mem.load data i
    if i + 1 < len then do
      let b ← Mem.load data (i + 1)
      if i + 2 < len then do
        let c ← Mem.load data (i + 2)
        let buf ← group3 a b c
        let out ← Str.appendC out (cmem buf)
        loop data len (i + 3) out
      else do
        let buf ← group2 a b
        let out ← Str.appendC out (cmem buf)
        loop data len (i + 2) out
    else do
      let buf ← group1 a
      let out ← Str.appendC out (cmem buf)
      loop data len (i + 1) out
  else .ok out
termination_by len - i

/-- `Base64::encode` (std/encoding/base64.zc:10-88). -/
def encode (data : Mem Byte) (len : Nat) : Res Str := do
  let out ← Str.new (cmem [])
  let out := Str.reserve out (4 * ((len + 2) / 3))
  loop data len 0 out

namespace Spec

/-- Value of a character of the RFC 4648 alphabet (section 4, table 1). -/
def val (c : Byte) : Option Nat :=
  let n := c.toNat
  if 65 ≤ n ∧ n ≤ 90 then some (n - 65)
  else if 97 ≤ n ∧ n ≤ 122 then some (n - 97 + 26)
  else if 48 ≤ n ∧ n ≤ 57 then some (n - 48 + 52)
  else if n = 43 then some 62
  else if n = 47 then some 63
  else none

/-- RFC 4648 decoding of a padded text; the unused bits of a padded group must be zero. -/
def decode : List Byte → Option (List Byte)
  | [] => some []
  | c1 :: c2 :: c3 :: c4 :: rest =>
    if rest = [] ∧ c4 = 61 then
      if c3 = 61 then do
        let a ← val c1
        let b ← val c2
        if b % 16 = 0 then some [UInt8.ofNat (a * 4 + b / 16)] else none
      else do
        let a ← val c1
        let b ← val c2
        let c ← val c3
        if c % 4 = 0 then
          some [UInt8.ofNat (a * 4 + b / 16), UInt8.ofNat (b % 16 * 16 + c / 4)]
        else none
    else do
      let a ← val c1
      let b ← val c2
      let c ← val c3
      let d ← val c4
      let r ← decode rest
      some (UInt8.ofNat (a * 4 + b / 16) :: UInt8.ofNat (b % 16 * 16 + c / 4) ::
        UInt8.ofNat (c % 4 * 64 + d) :: r)
  | _ => none

/-- Alphabet characters, then at most two padding characters. -/
def WellFormed (t : List Byte) : Prop :=
  ∃ body pad : List Byte, t = body ++ pad ∧ (∀ c ∈ body, (val c).isSome = true) ∧
    (∀ c ∈ pad, c = 61) ∧ pad.length ≤ 2

end Spec
end Verif.Base64
