import Verif.Basic

/-!
# `std/crypto/sha1.zc` — SHA-1

`u32` is `UInt32`; the 64-bit counter is a natural number reduced modulo 2^64 where the code adds
to it.  The sum `j + len` on line 93 and the index sums of line 101 are not reduced (they are at
most `len + 63`).
-/

namespace Verif.Sha1
open Verif

abbrev Byte := UInt8
abbrev Word := UInt32

/-- The five chaining words `state` (std/crypto/sha1.zc:11). -/
structure H5 where
  a : Word
  b : Word
  c : Word
  d : Word
  e : Word
  deriving DecidableEq, Repr

/-- `struct Sha1` (std/crypto/sha1.zc:10-14). -/
structure Sha where
  state : H5
  count : Nat
  buffer : Mem Byte
  deriving DecidableEq

/-- `Sha1::new` (std/crypto/sha1.zc:17-29). -/
def new : Sha :=
  ⟨⟨0x67452301, 0xEFCDAB89, 0x98BADCFE, 0x10325476, 0xC3D2E1F0⟩, 0, List.replicate 64 (some 0)⟩

/-- First schedule loop (std/crypto/sha1.zc:41-44): `n` iterations remain. -/
def sched16 (data : Mem Byte) (off : Nat) : Nat → Nat → Mem Word → Res (Mem Word)
  | 0, _, w => .ok w
  | n + 1, i, w => do
    let b0 ← Mem.load data (off + i * 4)
    let b1 ← Mem.load data (off + (i * 4 + 1))
    let b2 ← Mem.load data (off + (i * 4 + 2))
    let b3 ← Mem.load data (off + (i * 4 + 3))
    let v : Word := (b0.toUInt32 <<< 24) ||| (b1.toUInt32 <<< 16) ||| (b2.toUInt32 <<< 8)
      ||| b3.toUInt32
    let w ← Mem.store w i v
    sched16 data off n (i + 1) w

/-- Second schedule loop (std/crypto/sha1.zc:46-50): `n` iterations remain. -/
def sched80 : Nat → Nat → Mem Word → Res (Mem Word)
  | 0, _, w => .ok w
  | n + 1, i, w => do
    let x ← Mem.load w (i - 3)
    let y ← Mem.load w (i - 8)
    let z ← Mem.load w (i - 14)
    let u ← Mem.load w (i - 16)
    let temp := x ^^^ y ^^^ z ^^^ u
    let w ← Mem.store w i ((temp <<< 1) ||| (temp >>> 31))
    sched80 n (i + 1) w

/-- The choice of `f` and `k` in round `i` (std/crypto/sha1.zc:56-68). -/
def fk (i : Nat) (b c d : Word) : Word × Word :=
  if i < 20 then ((b &&& c) ||| ((~~~ b) &&& d), 0x5A827999)
  else if i < 40 then (b ^^^ c ^^^ d, 0x6ED9EBA1)
  else if i < 60 then ((b &&& c) ||| (b &&& d) ||| (c &&& d), 0x8F1BBCDC)
  else (b ^^^ c ^^^ d, 0xCA62C1D6)

/-- Round loop (std/crypto/sha1.zc:52-78): `n` rounds remain. -/
def rounds (w : Mem Word) : Nat → Nat → H5 → Res H5
  | 0, _, h => .ok h
  | n + 1, i, h => do
    let wi ← Mem.load w i
    let (f, k) := fk i h.b h.c h.d
    let temp := ((h.a <<< 5) ||| (h.a >>> 27)) + f + h.e + k + wi
    rounds w n (i + 1) ⟨temp, h.a, (h.b <<< 30) ||| (h.b >>> 2), h.c, h.d⟩

/-- `_transform` on the block at `data + off` (std/crypto/sha1.zc:31-85). -/
def transform (st : H5) (data : Mem Byte) (off : Nat) : Res H5 := do
  let w ← sched16 data off 16 0 (Mem.malloc 80)
  let w ← sched80 64 16 w
  let h ← rounds w 80 0 st
  .ok ⟨st.a + h.a, st.b + h.b, st.c + h.c, st.d + h.d, st.e + h.e⟩

/-- Loop over whole blocks of the argument (std/crypto/sha1.zc:101-104). -/
def blocksLoop (data : Mem Byte) (len : Nat) (st : H5) (i : Nat) : Res (H5 × Nat) :=
  if i + 63 < len then do
    let st ← transform st data i
    blocksLoop data len st (i + 64)
  else .ok (st, i)
termination_by len - i

/-- `Sha1::update` (std/crypto/sha1.zc:87-114). -/
def update (s : Sha) (data : Mem Byte) (len : Nat) : Res Sha :=
  let j := (s.count >>> 3) &&& 0x3F
  let count := (s.count + (len <<< 3) % 2 ^ 64) % 2 ^ 64
  if j + len > 63 then do
    let buffer ← Mem.memcpy s.buffer j data 0 (64 - j)
    let st ← transform s.state buffer 0
    let (st, i) ← blocksLoop data len st (64 - j)
    let buffer ← Mem.memcpy buffer 0 data i (len - i)
    .ok ⟨st, count, buffer⟩
  else do
    let buffer ← Mem.memcpy s.buffer j data 0 len
    .ok ⟨s.state, count, buffer⟩

/-- Padding loop (std/crypto/sha1.zc:129-137, and again 176-178), with fuel: `none` means the
fuel ran out. -/
def padLoop : Nat → Sha → Res (Option Sha)
  | 0, _ => .ok none
  | fuel + 1, s =>
    if s.count &&& 504 ≠ 448 then do
      let s ← update s [some 0] 1
      padLoop fuel s
    else .ok (some s)

/-- `final_count[k]` (std/crypto/sha1.zc:120-123). -/
def lenBytes (count : Nat) : List Byte :=
  (List.range 8).map fun k => UInt8.ofNat ((count >>> ((7 - k) * 8)) &&& 0xFF)

/-- The word selected by `self.state[idx]`. -/
def H5.get (h : H5) : Nat → Word
  | 0 => h.a
  | 1 => h.b
  | 2 => h.c
  | 3 => h.d
  | _ => h.e

/-- Extraction of the digest (std/crypto/sha1.zc:189-194). -/
def digest (h : H5) : List Byte :=
  (List.range 20).map fun k =>
    UInt8.ofNat (((h.get (k >>> 2)) >>> (UInt32.ofNat ((3 - (k &&& 3)) * 8)) &&& 0xFF).toNat)

/-- `Sha1::final` (std/crypto/sha1.zc:116-196). -/
def final (fuel : Nat) (s : Sha) : Res (Option (List Byte)) := do
  let fc := lenBytes s.count
  let s ← update s [some 0x80] 1
  match ← padLoop fuel s with
  | none => .ok none
  | some s =>
    match ← padLoop fuel s with
    | none => .ok none
    | some s => do
      let s ← update s (fc.map some) 8
      .ok (some (digest s.state))

/-- Feeding pieces one after the other. -/
def updates (s : Sha) : List (List Byte) → Res Sha
  | [] => .ok s
  | d :: ds => do
    let s ← update s (d.map some) d.length
    updates s ds

/-- `Sha1::hash` (std/crypto/sha1.zc:199-203). -/
def hash (fuel : Nat) (data : List Byte) : Res (Option (List Byte)) := do
  let s ← update new (data.map some) data.length
  final fuel s

/-! ## FIPS 180-4 -/

namespace Spec

/-- Rotation to the left (FIPS 180-4, 3.2). -/
def rotl (n : Nat) (x : Word) : Word := ⟨x.toBitVec.rotateLeft n⟩

/-- Functions `f_t` (FIPS 180-4, 4.1.1). -/
def f (t : Nat) (x y z : Word) : Word :=
  if t ≤ 19 then (x &&& y) ^^^ (~~~ x &&& z)
  else if t ≤ 39 then x ^^^ y ^^^ z
  else if t ≤ 59 then (x &&& y) ^^^ (x &&& z) ^^^ (y &&& z)
  else x ^^^ y ^^^ z

/-- Constants `K_t` (FIPS 180-4, 4.2.1). -/
def K (t : Nat) : Word :=
  if t ≤ 19 then 0x5a827999 else if t ≤ 39 then 0x6ed9eba1 else if t ≤ 59 then 0x8f1bbcdc
  else 0xca62c1d6

/-- Big-endian 32-bit words of a block (FIPS 180-4, 3.1, 5.2.1). -/
def M (blk : List Byte) (t : Nat) : Word :=
  UInt32.ofNat ((blk.getD (4 * t) 0).toNat * 2 ^ 24 + (blk.getD (4 * t + 1) 0).toNat * 2 ^ 16 +
    (blk.getD (4 * t + 2) 0).toNat * 2 ^ 8 + (blk.getD (4 * t + 3) 0).toNat)

/-- Message schedule `W_t` (FIPS 180-4, 6.1.2 step 1). -/
def W (blk : List Byte) (t : Nat) : Word :=
  if h : t ≤ 15 then M blk t
  else rotl 1 (W blk (t - 3) ^^^ W blk (t - 8) ^^^ W blk (t - 14) ^^^ W blk (t - 16))
termination_by t

/-- Working variables before step `t` (FIPS 180-4, 6.1.2 steps 2 and 3). -/
def work (blk : List Byte) (h : H5) : Nat → H5
  | 0 => h
  | t + 1 =>
    let v := work blk h t
    ⟨rotl 5 v.a + f t v.b v.c v.d + v.e + K t + W blk t, v.a, rotl 30 v.b, v.c, v.d⟩

/-- One block (FIPS 180-4, 6.1.2 step 4). -/
def compress (h : H5) (blk : List Byte) : H5 :=
  let v := work blk h 80
  ⟨v.a + h.a, v.b + h.b, v.c + h.c, v.d + h.d, v.e + h.e⟩

/-- Processing all complete blocks of a byte string. -/
def absorb (h : H5) (m : List Byte) : H5 :=
  if 64 ≤ m.length then absorb (compress h (m.take 64)) (m.drop 64) else h
termination_by m.length
decreasing_by simp; omega

/-- Initial hash value (FIPS 180-4, 5.3.1). -/
def H0 : H5 := ⟨0x67452301, 0xefcdab89, 0x98badcfe, 0x10325476, 0xc3d2e1f0⟩

/-- Big-endian bytes of a number. -/
def be (k n : Nat) : List Byte := (List.range k).map fun i => UInt8.ofNat (n / 256 ^ (k - 1 - i))

/-- Number of zero bytes of padding: the least `z` with `len + 1 + z ≡ 56 (mod 64)`
(FIPS 180-4, 5.1.1). -/
def zeros (len : Nat) : Nat := (119 - len % 64) % 64

/-- Padding (FIPS 180-4, 5.1.1). -/
def pad (m : List Byte) : List Byte :=
  m ++ 0x80 :: List.replicate (zeros m.length) 0 ++ be 8 (8 * m.length)

/-- The digest (FIPS 180-4, 6.1.2). -/
def sha1 (m : List Byte) : List Byte :=
  let h := absorb H0 (pad m)
  be 4 h.a.toNat ++ be 4 h.b.toNat ++ be 4 h.c.toNat ++ be 4 h.d.toNat ++ be 4 h.e.toNat

end Spec
end Verif.Sha1
