import Verif.Probe
import Verif.Str.Model

/-!
# Build flags: model

`expand_env_vars`, `append_flag`, `scan_build_directives` (src/utils/utils.c:140-493), the splitting of
a flag string into arguments (src/utils/cmd.c:314-359) and `main_append_flag` (src/main.c:20-51).

C strings are lists of bytes without the terminator.  Simplified: warnings are left out; `isalnum` and
`isspace` are those of the "C" locale; what a started `pkg-config` prints (its first line, at most 1023
bytes, newline removed) is a parameter, as are the environment and the operating system.
-/

namespace Verif.BuildFlags

open Verif.Str (Byte)

/-- `isspace` -/
def isSpace (c : Byte) : Bool := c == 32 || (9 ≤ c && c ≤ 13)

/-- `isalnum` -/
def isAlnum (c : Byte) : Bool := (48 ≤ c && c ≤ 57) || (65 ≤ c && c ≤ 90) || (97 ≤ c && c ≤ 122)

/-- text before the first `c` and behind it (`strchr`) -/
def cut (c : Byte) : List Byte → Option (List Byte × List Byte)
  | [] => none
  | d :: r => if d = c then some ([], r) else (cut c r).map fun p => (d :: p.1, p.2)

/-- environment: `getenv` -/
abbrev Env := List Byte → Option (List Byte)

/-! ## `expand_env_vars`, on memory -/

/-- the name and value of a reference at the start of the text and what follows it
(src/utils/utils.c:185-199): `${`, a name of fewer than 255 bytes, `}`, set in the environment -/
def ref (env : Env) : List Byte → Option (List Byte × List Byte)
  | a :: b :: r =>
      if a = 36 ∧ b = 123 then
        match cut 125 r with
        | some (name, rest) =>
            if name.length < 255 then (env name).map fun v => (v, rest) else none
        | none => none
      else none
  | _ => none

/-- writing bytes at an offset; beyond the block is undefined -/
def write (m : List (Option Byte)) (pos : Nat) (bs : List Byte) : Run (List (Option Byte)) :=
  if pos + bs.length ≤ m.length then .ok (m.take pos ++ bs.map some ++ m.drop (pos + bs.length)) else .ub

/-- `strncpy(d, val, n)`: the bytes of `val`, then zeros, `n` in all -/
def strncpy (m : List (Option Byte)) (pos : Nat) (val : List Byte) (n : Nat) : Run (List (Option Byte)) :=
  write m pos (val.take n ++ List.replicate (n - val.length) 0)

/-- the loop (src/utils/utils.c:183-216): `d` at offset `pos`, `rem` bytes remaining, `s` the rest.
The first argument bounds the number of rounds (every round takes at least one byte of `s`). -/
def expandLoop (env : Env) : Nat → List (Option Byte) → Nat → Nat → List Byte → Run (List (Option Byte) × Nat)
  | 0, m, pos, _, _ => .ok (m, pos)
  | f + 1, m, pos, rem, s =>
      match s with
      | [] => .ok (m, pos)
      | c :: r =>
          if rem = 0 then .ok (m, pos)
          else
            match (ref env (c :: r)).filter fun p => p.1.length < rem with
            | some (v, rest) => do
                let m ← strncpy m pos v rem
                expandLoop env f m (pos + v.length) (rem - v.length) rest
            | none => do
                let m ← write m pos [c]
                expandLoop env f m (pos + 1) (rem - 1) r

/-- `expand_env_vars(dest, dest_size, src)` for `dest_size ≥ 1` (src/utils/utils.c:177-217) -/
def expandMem (env : Env) (dest : List (Option Byte)) (src : List Byte) : Run (List (Option Byte)) := do
  let (m, pos) ← expandLoop env (src.length + 1) dest 0 (dest.length - 1) src
  write m pos [0]

/-! ## `expand_env_vars`, the text it leaves -/

/-- the text, given the number of bytes remaining -/
def expandF (env : Env) : Nat → Nat → List Byte → List Byte
  | 0, _, _ => []
  | f + 1, rem, s =>
      match s with
      | [] => []
      | c :: r =>
          if rem = 0 then []
          else
            match (ref env (c :: r)).filter fun p => p.1.length < rem with
            | some (v, rest) => v ++ expandF env f (rem - v.length) rest
            | none => c :: expandF env f (rem - 1) r

/-- the text in a buffer of `size` bytes -/
def expand (env : Env) (size : Nat) (src : List Byte) : List Byte :=
  expandF env (src.length + 1) (size - 1) src

/-! ## Flags -/

/-- `MAX_FLAGS_SIZE` (src/zprep.h:167) -/
def maxFlags : Nat := 1024

/-- the text of a flag: in quotes if it contains a space -/
def quoteFlag (flag : List Byte) : List Byte := if (32 : Byte) ∈ flag then 34 :: (flag ++ [34]) else flag

/-- `append_flag` (src/utils/utils.c:140-174); `snprintf` cannot cut anything off behind the test -/
def appendFlag (max : Nat) (dest flag : List Byte) : List Byte :=
  let required := flag.length + (if (32 : Byte) ∈ flag then 2 else 0) + (if dest.length > 0 then 1 else 0)
  if dest.length + required + 1 > max then dest
  else if dest.length > 0 then dest ++ 32 :: quoteFlag flag else quoteFlag flag

/-- one argument of `arg_list_add_from_string` (src/utils/cmd.c:336-356): the argument and the rest -/
def word : Bool → List Byte → List Byte × List Byte
  | _, [] => ([], [])
  | q, c :: r =>
      if q || !isSpace c then
        if c = 34 then word (!q) r else let w := word q r; (c :: w.1, w.2)
      else ([], c :: r)

/-- `arg_list_add_from_string` (src/utils/cmd.c:314-359); the first argument bounds the rounds.  An
argument is cut after 4095 bytes. -/
def splitF : Nat → List Byte → List (List Byte)
  | 0, _ => []
  | f + 1, s =>
      match s.dropWhile isSpace with
      | [] => []
      | c :: r => let w := word false (c :: r); w.1.take 4095 :: splitF f w.2

/-- the arguments of a flag string -/
def split (s : List Byte) : List (List Byte) := splitF (s.length + 1) s

/-! ## `scan_build_directives` -/

/-- what the scan leaves behind -/
structure St where
  /-- `g_link_flags` -/
  link : List Byte
  /-- `g_cflags` -/
  cflags : List Byte
  /-- commands given to `popen`, in order -/
  cmds : List (List Byte)

/-- the world outside -/
structure World where
  env : Env
  /-- what `fgets` reads from a command -/
  out : List Byte → Option (List Byte)
  /-- `is_os_active` (src/utils/utils.c:220-246) -/
  active : List Byte → Bool

/-- `strncmp(s, p, strlen(p)) == 0`: what follows -/
def strip : List Byte → List Byte → Option (List Byte)
  | [], s => some s
  | _ :: _, [] => none
  | p :: ps, c :: s => if p = c then strip ps s else none

/-- `while (*p == ' ') p++` -/
def skipSp (s : List Byte) : List Byte := s.dropWhile (· == 32)

/-- `link:` -/
def kLink : List Byte := [108, 105, 110, 107, 58]
/-- `cflags:` -/
def kCflags : List Byte := [99, 102, 108, 97, 103, 115, 58]
/-- `include:` -/
def kInclude : List Byte := [105, 110, 99, 108, 117, 100, 101, 58]
/-- `lib:` -/
def kLib : List Byte := [108, 105, 98, 58]
/-- `framework:` -/
def kFramework : List Byte := [102, 114, 97, 109, 101, 119, 111, 114, 107, 58]
/-- `define:` -/
def kDefine : List Byte := [100, 101, 102, 105, 110, 101, 58]
/-- `shell:` -/
def kShell : List Byte := [115, 104, 101, 108, 108, 58]
/-- `get:` -/
def kGet : List Byte := [103, 101, 116, 58]
/-- `pkg-config:` -/
def kPkg : List Byte := [112, 107, 103, 45, 99, 111, 110, 102, 105, 103, 58]
/-- `linux` -/
def osLinux : List Byte := [108, 105, 110, 117, 120]
/-- `windows` -/
def osWindows : List Byte := [119, 105, 110, 100, 111, 119, 115]
/-- `macos` -/
def osMacos : List Byte := [109, 97, 99, 111, 115]
/-- `darwin` -/
def osDarwin : List Byte := [100, 97, 114, 119, 105, 110]

/-- `-framework ` -/
def fFramework : List Byte := [45, 102, 114, 97, 109, 101, 119, 111, 114, 107, 32]
/-- `pkg-config --cflags ` -/
def cmdCflags : List Byte :=
  [112, 107, 103, 45, 99, 111, 110, 102, 105, 103, 32, 45, 45, 99, 102, 108, 97, 103, 115, 32]
/-- `pkg-config --libs ` -/
def cmdLibs : List Byte :=
  [112, 107, 103, 45, 99, 111, 110, 102, 105, 103, 32, 45, 45, 108, 105, 98, 115, 32]

/-- the characters let through to `pkg-config` (src/utils/utils.c:427-435) -/
def pkgChar (c : Byte) : Bool := isAlnum c || c == 45 || c == 95 || c == 32 || c == 46

/-- one command of the `pkg-config` directive and its first line of output
(src/utils/utils.c:445-476) -/
def pkgRun (w : World) (max : Nat) (dest cmd : List Byte) : List Byte :=
  match w.out cmd with
  | some l => appendFlag max dest l
  | none => dest

/-- one directive (src/utils/utils.c:316-481) -/
def directive (w : World) (d : List Byte) (st : St) : St :=
  match strip kLink d with
  | some v => { st with link := appendFlag maxFlags st.link (skipSp v) }
  | none =>
  match strip kCflags d with
  | some v => { st with cflags := appendFlag maxFlags st.cflags (skipSp v) }
  | none =>
  match strip kInclude d with
  | some v => { st with cflags := appendFlag maxFlags st.cflags (([45, 73] ++ skipSp v).take 2047) }
  | none =>
  match strip kLib d with
  | some v => { st with link := appendFlag maxFlags st.link (([45, 76] ++ skipSp v).take 2047) }
  | none =>
  match strip kFramework d with
  | some v => { st with link := appendFlag maxFlags st.link ((fFramework ++ skipSp v).take 2047) }
  | none =>
  match strip kDefine d with
  | some v => { st with cflags := appendFlag maxFlags st.cflags (([45, 68] ++ skipSp v).take 2047) }
  | none =>
  match strip kShell d with
  | some _ => st
  | none =>
  match strip kGet d with
  | some _ => st
  | none =>
  match strip kPkg d with
  | some libs =>
      if libs.all pkgChar then
        let c1 := (cmdCflags ++ libs).take 4095
        let c2 := (cmdLibs ++ libs).take 4095
        { link := pkgRun w maxFlags st.link c2, cflags := pkgRun w maxFlags st.cflags c1,
          cmds := st.cmds ++ [c1, c2] }
      else st
  | none => st

/-- an operating system in front (src/utils/utils.c:286-314); `none`: not for this system -/
def osPart (w : World) (line : List Byte) : Option (List Byte) :=
  match cut 58 line with
  | some (name, rest) =>
      if name = osLinux ∨ name = osWindows ∨ name = osMacos ∨ name = osDarwin then
        if w.active name then some (skipSp rest) else none
      else some line
  | none => some line

/-- a line that begins with `//>`, from there on (src/utils/utils.c:257-482) -/
def dirLine (w : World) (l : List Byte) (st : St) : St :=
  let raw := (skipSp l).take 2047
  let raw := if raw.getLast? = some 13 then raw.dropLast else raw
  match osPart w (expand w.env 2048 raw) with
  | some d => directive w d st
  | none => st

/-- `scan_build_directives` (src/utils/utils.c:248-493), line by line; the first argument bounds the
rounds -/
def scanF (w : World) : Nat → List Byte → St → St
  | 0, _, st => st
  | f + 1, s, st =>
      match s with
      | [] => st
      | _ :: _ =>
          let line := s.takeWhile (· != 10)
          let rest := (s.dropWhile (· != 10)).drop 1
          match strip [47, 47, 62] line with
          | some l => scanF w f rest (dirLine w l st)
          | none => scanF w f rest st

/-- the scan of a whole text -/
def scan (w : World) (src : List Byte) (st : St) : St := scanF w (src.length + 1) src st

/-! ## Flags of the command line -/

/-- `max_size - cur_len - 1` in `size_t` -/
def room (max cur : Nat) : Nat := if cur < max then max - cur - 1 else 2 ^ 64 - 1 - (cur - max)

/-- `strncat(dest, s, n)` into a block of `max` bytes -/
def strncat (max : Nat) (dest s : List Byte) (n : Nat) : Run (List Byte) :=
  if (dest ++ s.take n).length < max then .ok (dest ++ s.take n) else .ub

/-- `main_append_flag` (src/main.c:20-51) -/
def mainAppend (max : Nat) (dest : List Byte) (pre : List Byte) (val : Option (List Byte)) : Run (List Byte) := do
  let mut d := dest
  let mut cur := dest.length
  if cur > 0 ∧ dest.getLast? ≠ some 32 then
    d ← strncat max d [32] (room max cur)
    cur := cur + 1
  d ← strncat max d pre (room max cur)
  cur := d.length
  match val with
  | none => pure d
  | some v =>
      if (32 : Byte) ∈ v then
        d ← strncat max d [34] (room max cur)
        cur := cur + 1
        d ← strncat max d v (room max cur)
        cur := d.length
        strncat max d [34] (room max cur)
      else
        strncat max d v (room max cur)

/-! ## What is meant -/

namespace Spec

/-- pieces of a text with references to the environment: plain text, a variable that is set (its name
and value), one that is not -/
inductive Piece where
  | lit (t : List Byte)
  | set (name value : List Byte)
  | unset (name : List Byte)

/-- how a piece is written -/
def Piece.text : Piece → List Byte
  | .lit t => t
  | .set n _ => [36, 123] ++ n ++ [125]
  | .unset n => [36, 123] ++ n ++ [125]

/-- what it stands for: a variable that is not set is left as it is -/
def Piece.value : Piece → List Byte
  | .lit t => t
  | .set _ v => v
  | .unset n => [36, 123] ++ n ++ [125]

/-- plain text has no `$`; names have no `}` and fewer than 255 bytes -/
def Piece.Ok (env : Env) : Piece → Prop
  | .lit t => (36 : Byte) ∉ t
  | .set n v => (125 : Byte) ∉ n ∧ n.length < 255 ∧ env n = some v
  | .unset n => (125 : Byte) ∉ n ∧ (36 : Byte) ∉ n ∧ env n = none

/-- letters, digits, `-`, `_`, space and `.` -/
def Harmless (c : Byte) : Prop :=
  (48 ≤ c ∧ c ≤ 57) ∨ (65 ≤ c ∧ c ≤ 90) ∨ (97 ≤ c ∧ c ≤ 122) ∨ c = 45 ∨ c = 95 ∨ c = 32 ∨ c = 46

/-- kinds of directives that give one flag -/
inductive Kind where
  | link | cflags | incl | lib | define

/-- a directive -/
structure Dir where
  os : Option (List Byte)
  kind : Kind
  value : List Byte

/-- how it is written: `//> linux: link: value` -/
def Dir.text (d : Dir) : List Byte :=
  [47, 47, 62, 32] ++
    ((match d.os with | some o => o ++ [58, 32] | none => []) ++
      ((match d.kind with
        | .link => ([108, 105, 110, 107, 58, 32] : List Byte)
        | .cflags => ([99, 102, 108, 97, 103, 115, 58, 32] : List Byte)
        | .incl => ([105, 110, 99, 108, 117, 100, 101, 58, 32] : List Byte)
        | .lib => ([108, 105, 98, 58, 32] : List Byte)
        | .define => ([100, 101, 102, 105, 110, 101, 58, 32] : List Byte)) ++ d.value))

/-- the argument it stands for -/
def Dir.flag (d : Dir) : List Byte :=
  match d.kind with
  | .link | .cflags => d.value
  | .incl => [45, 73] ++ d.value
  | .lib => [45, 76] ++ d.value
  | .define => [45, 68] ++ d.value

/-- is it for the linker? -/
def Dir.toLink (d : Dir) : Bool := match d.kind with | .link | .lib => true | _ => false

/-- does it hold on this system? -/
def Dir.holds (active : List Byte → Bool) (d : Dir) : Bool :=
  match d.os with | some o => active o | none => true

/-- a line of a source file -/
inductive Line where
  | code (l : List Byte)
  | dir (d : Dir)

/-- text of a line -/
def Line.text : Line → List Byte
  | .code l => l
  | .dir d => d.text

/-- text of a file -/
def source (ls : List Line) : List Byte := ls.flatMap fun l => l.text ++ [10]

/-- the arguments for the linker or the compiler, in order -/
def flags (active : List Byte → Bool) (link : Bool) (ls : List Line) : List (List Byte) :=
  ls.filterMap fun l =>
    match l with
    | .code _ => none
    | .dir d => if d.toLink = link ∧ d.holds active then some d.flag else none

/-- one flag: no white space other than spaces, no quotes, no `$`, not empty, no space in front -/
def FlagOk (v : List Byte) : Prop :=
  v ≠ [] ∧ v.head? ≠ some 32 ∧ v.length ≤ 2000 ∧
    ∀ c ∈ v, c ≠ 34 ∧ c ≠ 36 ∧ (isSpace c = true → c = 32)

/-- lines as in the theorem -/
def LineOk : Line → Prop
  | .code l => (10 : Byte) ∉ l ∧ ∀ r, l ≠ [47, 47, 62] ++ r
  | .dir d => FlagOk d.value ∧
      (match d.kind with | .link | .cflags => (32 : Byte) ∉ d.value | _ => True) ∧ ∀ o, d.os = some o → o = osLinux ∨ o = osWindows ∨ o = osMacos ∨ o = osDarwin

/-- an option of the command line passed on to the C compiler -/
structure Opt where
  pre : List Byte
  val : Option (List Byte)

/-- the argument it stands for -/
def Opt.arg (o : Opt) : List Byte := o.pre ++ o.val.getD []

/-- no quotes; no white space but spaces in the value -/
def Opt.Ok (o : Opt) : Prop :=
  o.pre ≠ [] ∧ (∀ c ∈ o.pre, c ≠ 34 ∧ isSpace c = false) ∧
    (∀ v, o.val = some v → ∀ c ∈ v, c ≠ 34 ∧ (isSpace c = true → c = 32)) ∧ o.arg.length ≤ 4095

/-- room needed for a list of flags -/
def need (fs : List (List Byte)) : Nat := (fs.map fun f => f.length + 3).sum

end Spec

end Verif.BuildFlags
