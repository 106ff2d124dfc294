import Verif.Basic

/-!
# The files a language server finds at its start: model

`initialize` (/repo/src/lsp/json_rpc.c:78-109), `lsp_project_init`, `scan_file` and `scan_dir`
(/repo/src/lsp/lsp_project.c:12-37, 50-73, 75-106).

Simplified: a character is a byte.  The file system does not change during the scan and is given by what
`opendir`, `stat` and `load_file` answer for a path, so links are what they point to.  What is done with
a file that was found (lsp_project.c:71) is not part of this model; the result is the list of the URIs
under which files are entered, in order.
-/

namespace Verif.LspScan
open Verif

abbrev Path := List Char

/-- What `stat` says of a path (lsp_project.c:93-102). -/
inductive Kind where
  | dir
  | reg
  | other
  deriving DecidableEq, Repr

/-- The file system: `opendir` with `readdir` (lsp_project.c:77-84), `stat` (lsp_project.c:93), and
whether `load_file` gives a text (lsp_project.c:61-65). -/
structure Fs where
  entries : Path → Option (List Path)
  kind : Path → Option Kind
  readable : Path → Bool

/-- `snprintf(path, 1024, "%s/%s", ...)` (lsp_project.c:89-90): 1023 characters and the zero. -/
def join (d n : Path) : Path := (d ++ '/' :: n).take 1023

/-- The text from the last dot on, if there is a dot: `strrchr(path, '.')` (lsp_project.c:53). -/
def ext : Path → Option Path
  | [] => none
  | c :: r =>
    match ext r with
    | some e => some e
    | none => if c = '.' then some (c :: r) else none

/-- `scan_file` (lsp_project.c:50-73).  The URI has room: `uri` is 2048 long, a path at most 1023. -/
def file (fs : Fs) (q : Path) : List Path :=
  if ext q = some ['.', 'z', 'c'] then
    if fs.readable q then ["file://".toList ++ q] else []
  else []

/-- `scan_dir` (lsp_project.c:75-106).  `fds` is the number of descriptors that can still be opened: one
is held at each level until `closedir`, and without one `opendir` fails. -/
def scan (fs : Fs) : Nat → Path → List Path
  | 0, _ => []
  | k + 1, d =>
    match fs.entries d with
    | none => []
    | some ns => ns.flatMap (fun n =>
        if n.head? = some '.' then []
        else match fs.kind (join d n) with
          | some .dir => scan fs k (join d n)
          | some .reg => file fs (join d n)
          | _ => [])

/-- How many directories a scan opens (`opendir` that succeeds, lsp_project.c:77). -/
def opened (fs : Fs) : Nat → Path → Nat
  | 0, _ => 0
  | k + 1, d =>
    match fs.entries d with
    | none => 0
    | some ns => 1 + (ns.map (fun n =>
        if n.head? = some '.' then 0
        else match fs.kind (join d n) with
          | some .dir => opened fs k (join d n)
          | _ => 0)).sum

/-- The removal of `file://` (json_rpc.c:98-103). -/
def clean (r : Path) : Path := if "file://".toList.isPrefixOf r then r.drop 7 else r

/-- The choice of the root (json_rpc.c:80-105): `rootPath`, else `rootUri`, else the current directory. -/
def root (rootPath rootUri : Option Path) : Path :=
  match rootPath, rootUri with
  | some p, _ => clean p
  | none, some u => clean u
  | none, none => ['.']

/-- `initialize` in a server that has no project yet (json_rpc.c:78-109, lsp_project.c:12-37). -/
def init (fs : Fs) (fds : Nat) (rootPath rootUri : Option Path) : List Path :=
  scan fs fds (root rootPath rootUri)

namespace Spec

/-- A name that is not hidden. -/
def Shown (n : Path) : Prop := ∀ r, n ≠ '.' :: r

/-- `Below fs d q k`: `q` is the path of something in the directory `d`, with `k` directories on the way,
none of them hidden. -/
inductive Below (fs : Fs) : Path → Path → Nat → Prop
  | here {d n ns} : fs.entries d = some ns → n ∈ ns → Shown n → Below fs d (d ++ ['/'] ++ n) 0
  | down {d n ns q k} : fs.entries d = some ns → n ∈ ns → Shown n →
      fs.kind (d ++ ['/'] ++ n) = some .dir → Below fs (d ++ ['/'] ++ n) q k → Below fs d q (k + 1)

/-- A Zen-C source: a file that can be read and whose name ends in `.zc`. -/
def Source (fs : Fs) (q : Path) : Prop :=
  fs.kind q = some .reg ∧ fs.readable q = true ∧ ∃ s, q = s ++ ".zc".toList

/-- The characters a URI has as they are in a path (RFC 3986, section 2.3, and the slash). -/
def plain (c : Char) : Bool :=
  ('a' ≤ c && c ≤ 'z') || ('A' ≤ c && c ≤ 'Z') || ('0' ≤ c && c ≤ '9') ||
    c = '-' || c = '.' || c = '_' || c = '~' || c = '/'

/-- One hexadecimal digit. -/
def hex (n : Nat) : Char := if n < 10 then Char.ofNat (48 + n) else Char.ofNat (55 + n)

/-- The URI of a path: other characters as `%XX` (RFC 3986, section 2.1). -/
def uri (p : Path) : Path :=
  "file://".toList ++ p.flatMap (fun c =>
    if plain c then [c] else ['%', hex (c.toNat / 16 % 16), hex (c.toNat % 16)])

end Spec
end Verif.LspScan
