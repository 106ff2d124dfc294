import Verif.Str.Model

/-!
# Model of `std/path.zc`

A `Path` is a `String`; the model works on `Verif.Str.Str`.  The C string handed to `join` is its
memory image.
-/

namespace Verif.Path
open Verif Verif.Str

/-- `c == '/' || c == '\\'` -/
def sep (c : Byte) : Bool := c == 47 || c == 92

/-- `Path.join` (std/path.zc:28-44). -/
def join (self : Str) (other : Mem Byte) : Res Str := do
  let baseLen := length self
  let newS ← new self.buf
  let newS ← if baseLen > 0 then do
      let last ← Vec.get self (baseLen - 1)
      if last ≠ 47 ∧ last ≠ 92 then do
        let sp ← new (cmem [47])
        append newS sp
      else pure newS
    else pure newS
  let otherStr ← new other
  append newS otherStr

/-- `while (n > 0 && p(s[n-1])) n = n - 1;` (std/path.zc:74-76, 80-82, 94-96, 99-101, 105-107). -/
def scanBack (p : Byte → Bool) (s : Mem Byte) : Nat → Res Nat
  | 0 => .ok 0
  | n + 1 => do
      let c ← Mem.load s n
      if p c then scanBack p s n else .ok (n + 1)

/-- Loop of `extension` (std/path.zc:51-62): position after the dot. -/
def extLoop (s : Mem Byte) : Nat → Res (Option Nat)
  | 0 => .ok none
  | n + 1 => do
      let c ← Mem.load s n
      if c = 46 then .ok (some (n + 1))
      else if sep c then .ok none
      else extLoop s n

/-- `Path.extension` (std/path.zc:47-64). -/
def extension (self : Str) : Res (Option Str) := do
  let len := length self
  let r ← extLoop self.buf len
  match r with
  | none => pure none
  | some i => do
      let e ← substring self i (len - i)
      pure (some e)

/-- `Path.file_name` (std/path.zc:66-85). -/
def fileName (self : Str) : Res (Option Str) := do
  let len := length self
  if len = 0 then pure none
  else do
    let end_ ← scanBack sep self.buf len
    if end_ = 0 then pure none
    else do
      let start ← scanBack (fun c => !sep c) self.buf end_
      let r ← substring self start (end_ - start)
      pure (some r)

/-- `Path.parent` (std/path.zc:87-116). -/
def parent (self : Str) : Res (Option Str) := do
  let len := length self
  if len = 0 then pure none
  else do
    let e ← scanBack sep self.buf len
    let e ← scanBack (fun c => !sep c) self.buf e
    if e = 0 then pure none
    else do
      let e ← scanBack sep self.buf e
      if e = 0 then do
        let r ← new (cmem [47])
        pure (some r)
      else do
        let r ← substring self 0 e
        pure (some r)

namespace Spec

/-- text without its trailing separators -/
def strip (d : List Byte) : List Byte := (d.reverse.dropWhile sep).reverse

/-- directory `d` and component `c` joined with exactly one separator between them -/
def joined (d c : List Byte) : List Byte :=
  if d = [] then c
  else if (d.getLast?.map sep) = some true then d ++ c
  else d ++ [47] ++ c

/-- the directory a path in `d` lies in, written without trailing separators -/
def dir (d : List Byte) : Option (List Byte) :=
  if d = [] then none
  else if strip d = [] then some [47]
  else some (strip d)

/-- the part after the last dot -/
def ext (c : List Byte) : Option (List Byte) :=
  if 46 ∈ c then some (c.reverse.takeWhile (· ≠ 46)).reverse else none

end Spec
end Verif.Path
