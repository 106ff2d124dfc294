import Verif.Str.Model

/-!
# Reading source files: model

`load_file` (/repo/src/utils/utils.c:94-132), by which the compiler reads the file it is called with and
every imported one.

Simplified: POSIX; a file system is a function from paths to what `fopen` opens, and does not change
while a file is read; `fopen` fails for nothing else than a missing entry; memory does not run out.
-/

namespace Verif.LoadFile
open Verif
open Verif.Str (Byte)

/-- Paths and texts. -/
abbrev Text := List Byte

/-- What a path leads to: what `ftell` says behind `fseek(f, 0, SEEK_END)` (-1 if the stream cannot be
positioned) and the bytes that reading gives. -/
structure Node where
  size : Int
  data : Text
  deriving DecidableEq, Repr

/-- A file system. -/
abbrev FS := Text → Option Node

/-- `snprintf(path, sizeof(path), ...)` for `char path[1024]` (utils.c:102-103, 109-110, 115-116). -/
def cut (p : Text) : Text := p.take 1023

/-- `"/usr/local/share/zenc/"` (utils.c:110) -/
def localShare : Text := "/usr/local/share/zenc/".toUTF8.toList

/-- `"/usr/share/zenc/"` (utils.c:116) -/
def share : Text := "/usr/share/zenc/".toUTF8.toList

/-- `fopen` at the places in turn (utils.c:96-123); `root` is `getenv("ZC_ROOT")`. -/
def openFile (fs : FS) (root : Option Text) (fn : Text) : Option Node :=
  match fs fn with
  | some n => some n
  | none =>
    let second :=
      match root with
      | some r => fs (cut (r ++ 47 :: fn))
      | none => none
    match second with
    | some n => some n
    | none =>
      match fs (cut (localShare ++ fn)) with
      | some n => some n
      | none => fs (cut (share ++ fn))

/-- A C string ends at its first NUL. -/
def cstr (t : Text) : Text := t.takeWhile (· ≠ 0)

/-- `LONG_MAX` -/
def longMax : Int := 2 ^ 63 - 1

/-- The bytes in memory (utils.c:125-131).  With -1 the terminator is written in front of the block;
`l + 1` overflows for `LONG_MAX`; where less is read than `ftell` said the block keeps bytes that were
never written, which are read unless a NUL stands before them. -/
def slurp (n : Node) : Res Text :=
  if n.size < 0 ∨ n.size ≥ longMax then .ub
  else if n.data.length < n.size.toNat ∧ (0 : Byte) ∉ n.data then .ub
  else .ok (cstr (n.data.take n.size.toNat))

/-- `load_file`: the text the lexer gets, `none` for a null pointer. -/
def load (fs : FS) (root : Option Text) (fn : Text) : Res (Option Text) :=
  match openFile fs root fn with
  | none => .ok none
  | some n => (slurp n).bind (fun t => .ok (some t))

/-! ## What is meant -/

namespace Spec

/-- A path leads to an ordinary file with these bytes. -/
def Regular (n : Node) (b : Text) : Prop :=
  n.data = b ∧ n.size = b.length ∧ (b.length : Int) < 2 ^ 63 - 1

/-- The places for a file, the first is the best: as named, below ZC_ROOT, and where the compiler is
installed (`/usr/local/share/zenc/` and `/usr/share/zenc/`, in ASCII). -/
def places (root : Option Text) (fn : Text) : List Text :=
  fn :: ((root.map (fun r => r ++ 47 :: fn)).toList ++
    [[47, 117, 115, 114, 47, 108, 111, 99, 97, 108, 47, 115, 104, 97, 114, 101, 47, 122, 101, 110, 99, 47] ++ fn,
      [47, 117, 115, 114, 47, 115, 104, 97, 114, 101, 47, 122, 101, 110, 99, 47] ++ fn])

/-- `p` is the first of the places that leads to something. -/
def First (fs : FS) (ps : List Text) (p : Text) : Prop :=
  ∃ a b, ps = a ++ p :: b ∧ (∀ q ∈ a, fs q = none) ∧ fs p ≠ none

end Spec

end Verif.LoadFile
