import Verif.BuildFlags.Model

/-!
# The command that compiles the C text, and the program that is run: model

`build_compile_arg_list` (src/utils/cmd.c:81-144), and the path that `zc run` executes
(src/main.c:689-717).  The flag strings are split by `BuildFlags.split`.

Simplified: which of the three places of the standard library exists is given (`dir`, `none` for the
current directory); the adding of arguments is the subject of `Verif.Cmd`.
-/

namespace Verif.LinkCmd
open BuildFlags (split)

abbrev Byte := UInt8

/-- bytes of an ASCII text -/
def b (s : String) : List Byte := s.toList.map fun c => UInt8.ofNat c.toNat

/-- what the command depends on -/
structure Cfg where
  /-- `g_config.cc` -/
  cc : List Byte
  /-- `g_config.gcc_flags` -/
  flags : List Byte
  /-- `g_cflags` -/
  cflags : List Byte
  /-- `g_link_flags` -/
  link : List Byte
  /-- `g_config.c_files` -/
  cfiles : List (List Byte)
  freestanding : Bool
  quiet : Bool
  windows : Bool
  async : Bool
  /-- directory of the standard library -/
  dir : Option (List Byte)

/-- the libraries added for the platform (src/utils/cmd.c:114-121) -/
def platform (c : Cfg) : List (List Byte) :=
  if !c.windows && !c.freestanding then b "-lm" :: (if c.async then [b "-lpthread"] else []) else []

/-- the directories (src/utils/cmd.c:130-168) -/
def includes (c : Cfg) : List (List Byte) :=
  match c.dir with
  | some d =>
      (b "-I" ++ d) :: (if !c.freestanding then [b "-I" ++ d ++ b "/std/third-party/tre/include"] else [])
  | none => b "-I." :: (if !c.freestanding then [b "-I./std/third-party/tre/include"] else [])

/-- `build_compile_arg_list` (src/utils/cmd.c:81-168) -/
def args (c : Cfg) (out src : List Byte) : List (List Byte) :=
  split c.cc ++ split c.flags ++ split c.cflags ++
    (if c.freestanding then [b "-ffreestanding"] else []) ++ (if c.quiet then [b "-w"] else []) ++
    [b "-o", out] ++ (src :: c.cfiles) ++ platform c ++ split c.link ++
    (if c.windows then [b "-lws2_32"] else []) ++ includes c

/-- the path that is run, not on Windows: `snprintf(exe_out, 1024, "./%s", outfile)`
(src/main.c:710-715) -/
def runPath (out : List Byte) : List Byte := ([46, 47] ++ out).take 1023

namespace Spec

/-- what the user wrote, in the order that C compilers expect -/
def wanted (c : Cfg) (out src : List Byte) : List (List Byte) :=
  split c.cc ++ split c.flags ++ split c.cflags ++ [b "-o", out, src] ++ c.cfiles ++ split c.link

/-- what may be added -/
def own (c : Cfg) : List (List Byte) :=
  [b "-ffreestanding", b "-w", b "-lm", b "-lpthread", b "-lws2_32", b "-I.", b "-I./std/third-party/tre/include"] ++
    (match c.dir with
     | some d => [b "-I" ++ d, b "-I" ++ d ++ b "/std/third-party/tre/include"]
     | none => [])

/-! ### A linker that reads archives from left to right -/

/-- an object file or a member of an archive: the symbols it needs and defines -/
structure Unit' where
  needs : List Nat
  defs : List Nat

/-- symbols not yet defined, and defined -/
structure LSt where
  undef : Nat → Bool
  known : Nat → Bool

def load (i : Unit') (s : LSt) : LSt :=
  ⟨fun x => (s.undef x || i.needs.contains x) && !s.known x && !i.defs.contains x,
    fun x => s.known x || i.defs.contains x⟩

/-- an archive: taken if it defines a symbol that is wanted -/
def archive (i : Unit') (s : LSt) : LSt := if i.defs.any s.undef then load i s else s

/-- objects, then archives in order -/
def link (objs libs : List Unit') : LSt :=
  libs.foldl (fun s i => archive i s) (objs.foldl (fun s i => load i s) ⟨fun _ => false, fun _ => false⟩)

def Links (objs libs : List Unit') : Prop := ∀ x, (link objs libs).undef x = false

/-- two archives that have nothing to do with each other -/
def Apart (i j : Unit') : Prop :=
  (∀ x ∈ i.defs, x ∉ j.needs ∧ x ∉ j.defs) ∧ ∀ x ∈ j.defs, x ∉ i.needs ∧ x ∉ i.defs

/-! ### Paths -/

/-- the components of a path, without empty ones and `.` -/
def comps : List Byte → List Byte → List (List Byte)
  | w, [] => if w = [] ∨ w = [46] then [] else [w]
  | w, c :: r =>
      if c = 47 then (if w = [] ∨ w = [46] then comps [] r else w :: comps [] r) else comps (w ++ [c]) r

/-- the file a path means in a directory -/
def file (cwd p : List Byte) : List (List Byte) :=
  if p.head? = some 47 then comps [] p else comps [] cwd ++ comps [] p

end Spec

end Verif.LinkCmd
