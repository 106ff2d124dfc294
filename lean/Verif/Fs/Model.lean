import Verif.Str.Lemmas

/-!
# Model of `std/fs.zc` and `std/sys/fs.zc`

Reading a whole file, writing a text, listing a directory, the current directory.  A stream is what
the operating system delivers; opening is not modelled beyond the fresh stream of a mode.
Simplified: `malloc` succeeds.
-/

namespace Verif.Fs
open Verif Verif.Str

/-- An open stream: the bytes from its start, the position `ftell` reports after seeking to the end
(-1: not seekable), and how many bytes reads deliver before an error. -/
structure Stream where
  data : List Byte
  atEnd : Int
  good : Nat
deriving DecidableEq

/-- `(usize)` of an `I64`. -/
def usize (n : Int) : Nat := (n % 2 ^ 64).toNat

/-- `fread(buffer, 1, n, f)` from the start of the stream: the bytes delivered are stored one by one;
the buffer must have room for them. -/
def fread (buffer : Mem Byte) (n : Nat) (f : Stream) : Res (Mem Byte × Nat) :=
  let got := (f.data.take f.good).take n
  if got.length ≤ buffer.length then .ok (got.map some ++ buffer.drop got.length, got.length) else .ub

/-- `File::read_to_string` of an open file (std/fs.zc:64-90); it always answers `Ok`. -/
def readToString (f : Stream) : Res Str := do
  let size := f.atEnd
  let buffer : Mem Byte := Mem.malloc ((usize size + 1) % 2 ^ 64)
  let (buffer, read) ← fread buffer (usize size) f
  let buffer ← Mem.store buffer read 0
  new buffer

/-- `File::write_string` (std/fs.zc:107-117) at position `pos` of a file that has `data`; the
argument is how many bytes `fwrite` accepts (its buffer or the device may take less). -/
def writeString (data : List Byte) (pos : Nat) (content : Mem Byte) (accepts : Nat) : Res (List Byte × Bool) := do
  let len ← strlen content
  let bytes ← (List.range len).foldlM (fun acc i => do let c ← Mem.load content i; .ok (acc ++ [c])) ([] : List Byte)
  let out := bytes.take accepts
  .ok (data.take pos ++ out ++ data.drop (pos + out.length), decide (out.length = len))

/-- What `d_type` says about an entry of a directory, and what the entry is. -/
inductive Kind where
  | dir | file | linkToDir | linkToFile
deriving DecidableEq

/-- An entry delivered by `readdir`; some file systems do not fill `d_type` (readdir(3)). -/
structure Entry where
  name : List Byte
  kind : Kind
  typed : Bool
deriving DecidableEq

/-- `strncpy(dst, src, n)` into a block: the text, then zeros, `n` bytes in all. -/
def strncpy (dst : Mem Byte) (t : List Byte) (n : Nat) : Mem Byte :=
  ((t ++ List.replicate (n - t.length) 0).take n).map some ++ dst.drop n

/-- `_z_fs_read_entry` (std/sys/fs.zc:57-69) for a buffer of 256 bytes. -/
def readEntry (buf : Mem Byte) (e : Entry) : Res (Mem Byte × Bool) := do
  let buf ← Mem.store (strncpy buf e.name 255) 255 0
  .ok (buf, decide (e.typed = true ∧ e.kind = .dir))

/-- The loop of `File::read_dir` (std/fs.zc:187-206). -/
def readDirLoop : List Entry → Mem Byte → List (Str × Bool) → Res (List (Str × Bool))
  | [], _, acc => .ok acc
  | e :: es, buf, acc => do
    let (buf, isDir) ← readEntry buf e
    let dot ← strcmpEq buf (cmem [46])
    let dotdot ← strcmpEq buf (cmem [46, 46])
    if dot || dotdot then readDirLoop es buf acc
    else do
      let s ← new buf
      readDirLoop es buf (acc ++ [(s, isDir)])

/-- `File::read_dir` of a directory that opens (std/fs.zc:170-216). -/
def readDir (es : List Entry) : Res (List (Str × Bool)) := readDirLoop es (Mem.malloc 256) []

/-- `File::current_dir` (std/fs.zc:218-234): `getcwd` fails if the path does not fit. -/
def currentDir (path : List Byte) : Res (Option Str) :=
  if path.length + 1 ≤ 1024 then do
    let s ← new (path.map some ++ some 0 :: List.replicate (1023 - path.length) none)
    .ok (some s)
  else .ok none

namespace Spec

/-- A regular file: the end is where the data ends, and reads do not fail. -/
def Regular (f : Stream) : Prop := f.atEnd = (f.data.length : Int) ∧ f.data.length ≤ f.good ∧ f.data.length < 2 ^ 63

/-- The text of a C string: the bytes before the first zero byte. -/
def upToZero (t : List Byte) : List Byte := t.takeWhile (· != 0)

/-- What `File::metadata` says of an entry: `stat` follows links. -/
def isDir (e : Entry) : Bool := e.kind == .dir || e.kind == .linkToDir

/-- The entries a user expects. -/
def visible (es : List Entry) : List Entry := es.filter fun e => e.name != [46] && e.name != [46, 46]

/-- The result lists names and flags. -/
def Listed (f : Entry → Bool) : List (Str × Bool) → List Entry → Prop
  | [], [] => True
  | (s, d) :: r, e :: es => Text s e.name ∧ d = f e ∧ Listed f r es
  | _, _ => False

end Spec
end Verif.Fs
