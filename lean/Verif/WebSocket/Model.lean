import Verif.Str.Model

/-!
# Model of `std/net/websocket.zc` (`send`, `recv`) and of `TcpStream` (`std/net/tcp.zc`)

The incoming side of a connection is the list of non-empty segments in which the peer's bytes
arrive; one `read` returns at most one segment.  The outgoing side is the list of bytes the
kernel accepted.
-/

namespace Verif.WebSocket
open Verif Verif.Str

/-- incoming segments -/
abbrev Stream := List (List Byte)

/-- `TcpStream.read` (std/net/tcp.zc:14-18) with `n > 0`: bytes of one segment, `[]` at the end of
the stream.  Read errors are not modelled separately (they end the call like end of stream). -/
def read (n : Nat) : Stream → List Byte × Stream
  | [] => ([], [])
  | s :: ss => (s.take n, if s.length ≤ n then ss else s.drop n :: ss)

/-- `TcpStream.read_exact` (std/net/tcp.zc:20-30); `none` is `Err`.  The first argument is a step
budget, sufficient when at least `need`. -/
def readExact : Nat → Nat → Stream → Option (List Byte × Stream)
  | _, 0, ss => some ([], ss)
  | 0, _ + 1, _ => none
  | f + 1, need + 1, ss =>
      let r := read (need + 1) ss
      if r.1.length = 0 then none
      else
        match readExact f (need + 1 - r.1.length) r.2 with
        | none => none
        | some (bs, ss) => some (r.1 ++ bs, ss)

/-- header bytes written by `send` (std/net/websocket.zc:61-85) -/
def header (len : Nat) : List Byte :=
  if len ≤ 125 then [0x81, UInt8.ofNat len]
  else if len ≤ 65535 then [0x81, 126, UInt8.ofNat ((len >>> 8) &&& 0xFF), UInt8.ofNat (len &&& 0xFF)]
  else ([0x81, 127] : List Byte) ++ (List.range 8).map fun i => UInt8.ofNat ((len >>> ((7 - i) * 8)) &&& 0xFF)

/-- the first `n` bytes at a pointer -/
def bytesAt (m : Mem Byte) : Nat → Nat → Res (List Byte)
  | _, 0 => .ok []
  | i, n + 1 => do
      let c ← Mem.load m i
      let r ← bytesAt m (i + 1) n
      .ok (c :: r)

/-- `WebSocket.send` (std/net/websocket.zc:56-91): the bytes handed to the two `write` calls.
`accept` is how many bytes of a buffer the kernel takes in one `write`; the code does not look at
it. -/
def send (accept : List Byte → Nat) (msg : Str) : Res (List Byte) := do
  let len := length msg
  let h := header len
  let p ← bytesAt msg.buf 0 len
  .ok (h.take (accept h) ++ p.take (accept p))

/-- error texts of `recv` -/
inductive Err where
  | read | closed | notText | readLen | huge | readMask | readBody
  deriving DecidableEq, Repr

/-- unmasking loop (std/net/websocket.zc:141-145) -/
def unmask (key : List Byte) : Nat → List Byte → List Byte
  | _, [] => []
  | i, b :: bs => (b ^^^ key.getD (i % 4) 0) :: unmask key (i + 1) bs

/-- extended length (std/net/websocket.zc:115-125): `none` in the inner option is "huge" -/
def recvLen (code : Nat) (s : Stream) : Except Err (Nat × Stream) :=
  if code ≤ 125 then .ok (code, s)
  else if code = 126 then
    match readExact 2 2 s with
    | some ([a, b], s) => .ok ((a.toNat <<< 8) ||| b.toNat, s)
    | _ => .error .readLen
  else .error .huge

/-- `WebSocket.recv` (std/net/websocket.zc:93-155): the result and the rest of the stream
(the stream after an error is where reading stopped). -/
def recv (s0 : Stream) : Res (Except Err Str × Stream) :=
  match readExact 2 2 s0 with
  | some ([b1, b2], s) =>
      let opcode := b1.toNat &&& 0x0F
      if opcode = 8 then .ok (.error .closed, s)
      else if opcode ≠ 1 then .ok (.error .notText, s)
      else
        let masked := b2.toNat &&& 0x80 ≠ 0
        match recvLen (b2.toNat &&& 0x7F) s with
        | .error e => .ok (.error e, s)
        | .ok (len, s) =>
            match (if masked then readExact 4 4 s else some ([], s)) with
            | none => .ok (.error .readMask, s)
            | some (key, s) =>
                match readExact len len s with
                | none => .ok (.error .readBody, s)
                | some (buf, s) => do
                    let buf := if masked then unmask key 0 buf else buf
                    let str ← new (cmem buf)
                    .ok (.ok str, s)
  | _ => .ok (.error .read, s0)

/-- `n` calls of `recv`, stopping at the first error -/
def recvAll : Nat → Stream → Res (Option (List Str × Stream))
  | 0, s => .ok (some ([], s))
  | n + 1, s => do
      let r ← recv s
      match r with
      | (.error _, _) => .ok none
      | (.ok m, s) => do
          let rs ← recvAll n s
          .ok (rs.map fun x => (m :: x.1, x.2))

/-! ## RFC 6455 section 5.2 -/
namespace Spec

/-- a frame -/
structure Frame where
  fin : Bool
  opcode : Nat
  key : Option (List Byte)
  payload : List Byte
  deriving DecidableEq, Repr

/-- big-endian value -/
def be (bs : List Byte) : Nat := bs.foldl (fun v b => 256 * v + b.toNat) 0

/-- payload transformed by a masking key: byte i is xored with key byte i mod 4 -/
def mask (key : List Byte) (p : List Byte) : List Byte :=
  p.mapIdx fun i b => b ^^^ key.getD (i % 4) 0

/-- number of extended length bytes -/
def extLen (code : Nat) : Nat := if code < 126 then 0 else if code = 126 then 2 else 8

/-- read one frame as RFC 6455 prescribes -/
def decode (bs : List Byte) : Option (Frame × List Byte) :=
  match bs with
  | b1 :: b2 :: r =>
      let code := b2.toNat % 128
      let n := extLen code
      if r.length < n then none
      else
        let len := if code < 126 then code else be (r.take n)
        let r := r.drop n
        let k := if 128 ≤ b2.toNat then 4 else 0
        if r.length < k + len then none
        else
          let key := r.take k
          let body := (r.drop k).take len
          some (⟨128 ≤ b1.toNat, b1.toNat % 16, if k = 4 then some key else none,
            if k = 4 then mask key body else body⟩, r.drop (k + len))
  | _ => none

/-- write the length in the shortest form -/
def lenBytes (m : Bool) (n : Nat) : List Byte :=
  let mb := if m then 128 else 0
  if n < 126 then [UInt8.ofNat (mb + n)]
  else if n < 65536 then [UInt8.ofNat (mb + 126), UInt8.ofNat (n / 256), UInt8.ofNat (n % 256)]
  else UInt8.ofNat (mb + 127) :: (List.range 8).map fun i => UInt8.ofNat (n / 256 ^ (7 - i) % 256)

/-- write one complete text frame, masked if a key is given -/
def encode (key : Option (List Byte)) (p : List Byte) : List Byte :=
  129 :: lenBytes key.isSome p.length ++
    (match key with | some k => k ++ mask k p | none => p)

end Spec
end Verif.WebSocket
