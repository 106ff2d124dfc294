import Verif.Basic

/-!
# The command line and the driver: model

`main` (src/main.c:53-772) on a POSIX system: how the arguments become a configuration, which files are
written and removed, and the exit code.

Simplified: strings are lists of characters; what `main_append_flag` makes of the pieces of the flags is in
`BuildFlags`, so here they are a list; `--json`, `--no-zen`, `--keep-comments` only set what they set.
Parsing, checking and code generation are one function of the configuration and the files; it also reads the
extra files (src/main.c:445-533).  Writing fails only if the file cannot be opened; `rename` and `remove`
succeed.  Paths have no `..` and no symbolic links.
-/

namespace Verif.Driver

/-- text -/
abbrev Str := List Char

/-- `CompilerConfig` (src/zprep.h:196-260), what `main` sets -/
structure Config where
  run : Bool := false
  check : Bool := false
  transpile : Bool := false
  emitC : Bool := false
  json : Bool := false
  keepComments : Bool := false
  verbose : Bool := false
  quiet : Bool := false
  noZen : Bool := false
  typecheck : Bool := false
  freestanding : Bool := false
  cpp : Bool := false
  cuda : Bool := false
  objc : Bool := false
  cc : Str := "gcc".toList
  output : Option Str := none
  /-- `gcc_flags`, each appended piece -/
  flags : List Str := []
  /-- `g_link_flags` -/
  link : List Str := []
  includes : List Str := []
  defines : List Str := []
  input : Option Str := none
  extra : List Str := []

/-- options that take a value -/
inductive Opt where
  | cc | out | inc
  /-- `-L`, `-l` -/
  | lib (p : Str)
  | opt | defn
  deriving DecidableEq

/-- what an argument is -/
inductive Kind where
  | emitC | json | keepComments | info | verbose | quiet | noZen | typecheck | freestanding | cpp | cuda | objc
  | check | debug
  /-- an option with the value in the same argument, which is empty if the next one is the value -/
  | value (o : Opt) (rest : Str)
  | pass
  | file
  deriving DecidableEq

/-- the arguments that are compared as a whole, in the order of the comparisons (src/main.c:130-205, 312) -/
def exactArgs : List (Str × Kind) :=
  [("--emit-c".toList, .emitC), ("--json".toList, .json), ("--keep-comments".toList, .keepComments),
   ("--version".toList, .info), ("-V".toList, .info), ("--paths".toList, .info),
   ("--verbose".toList, .verbose), ("-v".toList, .verbose), ("--quiet".toList, .quiet), ("-q".toList, .quiet),
   ("--no-zen".toList, .noZen), ("--typecheck".toList, .typecheck), ("--freestanding".toList, .freestanding),
   ("--cpp".toList, .cpp), ("--cuda".toList, .cuda), ("--objc".toList, .objc), ("--objective-c".toList, .objc),
   ("--check".toList, .check), ("--cc".toList, .value .cc []), ("-g".toList, .debug)]

/-- the others go by their beginning (src/main.c:238-370) -/
def byPrefix : Str → Kind
  | '-' :: 'o' :: r => .value .out r
  | '-' :: 'I' :: r => .value .inc r
  | '-' :: 'L' :: r => .value (.lib ['-', 'L']) r
  | '-' :: 'l' :: r => .value (.lib ['-', 'l']) r
  | '-' :: 'O' :: r => .value .opt r
  | '-' :: 'D' :: r => .value .defn r
  | '-' :: _ => .pass
  | _ => .file

/-- the chain of comparisons (src/main.c:130-372); no argument that is compared as a whole begins as those
compared by their beginning, so that the order does not matter -/
def classify (a : Str) : Kind :=
  match exactArgs.find? fun p => p.1 = a with
  | some p => p.2
  | none => byPrefix a

/-- at most 64 -/
def push64 (l : List Str) (a : Str) : List Str := if l.length < 64 then l ++ [a] else l

/-- an option with its value (src/main.c:204-345) -/
def Config.set (c : Config) (o : Opt) (v : Str) : Config :=
  match o with
  | .cc => { c with cc := if v = "zig".toList then "zig cc".toList else v.take 63 }
  | .out => { c with output := some v }
  | .inc => { c with flags := c.flags ++ ["-I".toList ++ v], includes := push64 c.includes v }
  | .lib p => { c with link := c.link ++ [p ++ v] }
  | .opt => { c with flags := c.flags ++ ["-O".toList ++ v] }
  | .defn => { c with flags := c.flags ++ ["-D".toList ++ v],
                      defines := push64 c.defines (v.takeWhile (· != '=')) }

/-- one argument (src/main.c:127-372); with an option waiting for its value the argument is that value, as
`argv[++i]` -/
def step (s : Config × Option Opt) (a : Str) : Config × Option Opt :=
  match s.2 with
  | some o => (s.1.set o a, none)
  | none =>
    let c := s.1
    match classify a with
    | .emitC => ({ c with emitC := true }, none)
    | .json => ({ c with json := true }, none)
    | .keepComments => ({ c with keepComments := true }, none)
    | .info => (c, none)
    | .verbose => ({ c with verbose := true }, none)
    | .quiet => ({ c with quiet := true }, none)
    | .noZen => ({ c with noZen := true }, none)
    | .typecheck => ({ c with typecheck := true }, none)
    | .freestanding => ({ c with freestanding := true }, none)
    | .cpp => ({ c with cc := "g++".toList, cpp := true }, none)
    | .cuda => ({ c with cc := "nvcc".toList, cuda := true, cpp := true }, none)
    | .objc => ({ c with objc := true }, none)
    | .check => ({ c with check := true }, none)
    | .debug => ({ c with flags := c.flags ++ ["-g".toList] }, none)
    | .value o [] => (c, some o)
    | .value o (x :: r) => (c.set o (x :: r), none)
    | .pass => ({ c with flags := c.flags ++ [a] }, none)
    | .file =>
        match c.input with
        | none => ({ c with input := some a }, none)
        | some _ => ({ c with extra := push64 c.extra a }, none)

/-- what `main` does with the arguments -/
inductive Action where
  /-- the usage, with this exit code -/
  | usage (code : Nat)
  | lsp
  | repl
  /-- version or search paths, exit code 0 -/
  | info
  /-- an error about the arguments, exit code 1 -/
  | error
  | go (c : Config)

/-- the second loop (src/main.c:371-384) -/
def asks (a : Str) : Bool := a = "--version".toList || a = "-V".toList || a = "--paths".toList

/-- the arguments behind the command (src/main.c:126-399) -/
def options (c : Config) (args : List Str) : Action :=
  match args.foldl step (c, none) with
  | (_, some .out) => .error
  | (c, o) =>
    let c := if o = some .defn then { c with flags := c.flags ++ ["-D".toList] } else c
    if args.any asks then .info
    else if c.input = none then .error
    else .go c

/-- `main` up to the input file (src/main.c:53-399), without `argv[0]` -/
def commandLine : List Str → Action
  | [] => .usage 1
  | c :: r =>
    if c = "lsp".toList then .lsp
    else if c = "repl".toList then .repl
    else if c = "transpile".toList then options { transpile := true, emitC := true } r
    else if c = "run".toList then options { run := true } r
    else if c = "check".toList then options { check := true } r
    else if c = "build".toList then options {} r
    else if c = "--help".toList ∨ c = "-h".toList then .usage 0
    else if c.contains '.' then options { input := some c } r
    else if c.head? = some '-' then options {} (c :: r)
    else options {} r

/-! ## Files -/

/-- components of an absolute path -/
abbrev Path := List Str

/-- the components of a path, `cur` is the one being read -/
def comps : Str → Str → Path
  | [], cur => if cur = [] ∨ cur = ['.'] then [] else [cur]
  | c :: s, cur =>
    if c = '/' then (if cur = [] ∨ cur = ['.'] then [] else [cur]) ++ comps s []
    else comps s (cur ++ [c])

/-- the file a name stands for -/
def resolve (cwd : Path) (name : Str) : Path :=
  if name.head? = some '/' then comps name [] else cwd ++ comps name []

/-- the files -/
abbrev Fs := Path → Option Str

/-- write or remove a file -/
def Fs.put (fs : Fs) (p : Path) (v : Option Str) : Fs := fun q => if q = p then v else fs q

/-- how a process ends -/
inductive Status where
  | exited (n : Nat)
  | signalled

/-- what `main` runs in -/
structure Env where
  cwd : Path
  /-- the file can be opened for writing -/
  writable : Path → Bool
  /-- parsing, checking and generation: the C text if there is no error -/
  front : Config → Fs → Option Str
  /-- the C compiler: the executable if there is no error -/
  compile : Config → Fs → Option Str
  /-- running an executable -/
  exec : Str → Fs → Status × Fs

/-- the extension (src/main.c:577-590) -/
def ext (c : Config) : Str :=
  if c.cuda then ".cu".toList else if c.cpp then ".cpp".toList else if c.objc then ".m".toList else ".c".toList

/-- `temp_source_buf` (src/main.c:592-600) -/
def tempName (c : Config) : Str := c.output.getD "out".toList ++ ext c

/-- `outfile` (src/main.c:639-640) -/
def outName (c : Config) : Str := c.output.getD "a.out".toList

/-- `z_run_command` (src/platform/os.c:317-337) -/
def runCommand : Status → Int
  | .exited n => n
  | .signalled => -1

/-- the value `main` returns after running the program (src/main.c:743-747): `WIFEXITED` and `WEXITSTATUS` of
what is no wait status any more -/
def runResult (r : Int) : Int := if r % 128 = 0 then (r / 256) % 256 else r

/-- the exit status of a process whose `main` returns this -/
def exitStatus (r : Int) : Int := r % 256

/-- `main` with a configuration (src/main.c:401-772): exit status and files -/
def drive (E : Env) (c : Config) (fs : Fs) : Int × Fs :=
  let at_ := resolve E.cwd
  match c.input.bind fun f => fs (at_ f) with
  | none => (1, fs)
  | some _ =>
    match E.front c fs with
    | none => (1, fs)
    | some text =>
      if c.check then (0, fs)
      else
        let t := at_ (tempName c)
        if E.writable t = false then (1, fs)
        else
          let fs1 := fs.put t (some text)
          if c.transpile then
            match c.output with
            | some o => (0, (fs1.put t none).put (at_ o) (some text))
            | none => (0, fs1)
          else
            let out := at_ (outName c)
            match E.compile c fs1 with
            | none => (1, if c.emitC then fs1 else fs1.put t none)
            | some exe =>
              let fs2 := fs1.put out (some exe)
              let fs3 := if c.emitC then fs2 else fs2.put t none
              if c.run then
                let r := match fs3 (at_ ("./".toList ++ outName c)) with
                  | none => (Status.exited 127, fs3)
                  | some e => E.exec e fs3
                (exitStatus (runResult (runCommand r.1)), r.2.put out none)
              else (0, fs3)

/-! ## What the usage text promises -/

namespace Spec

/-- options without a value -/
inductive Flag where
  | emitC | json | keepComments | verbose | quiet | noZen | typecheck | freestanding | cpp | cuda | objc | check
  deriving DecidableEq

/-- how an option is written -/
def Flag.text : Flag → List Str
  | .emitC => ["--emit-c".toList]
  | .json => ["--json".toList]
  | .keepComments => ["--keep-comments".toList]
  | .verbose => ["--verbose".toList, "-v".toList]
  | .quiet => ["--quiet".toList, "-q".toList]
  | .noZen => ["--no-zen".toList]
  | .typecheck => ["--typecheck".toList]
  | .freestanding => ["--freestanding".toList]
  | .cpp => ["--cpp".toList]
  | .cuda => ["--cuda".toList]
  | .objc => ["--objc".toList, "--objective-c".toList]
  | .check => ["--check".toList]

/-- options with a value, by their letter -/
inductive Letter where
  | o | I | L | l | O | D
  deriving DecidableEq

/-- the letter -/
def Letter.char : Letter → Char
  | .o => 'o' | .I => 'I' | .L => 'L' | .l => 'l' | .O => 'O' | .D => 'D'

/-- one part of a command line -/
inductive Item where
  | flag (f : Flag) (text : Str)
  /-- `--cc v` -/
  | cc (v : Str)
  /-- `-Iv` -/
  | joined (x : Letter) (v : Str)
  /-- `-I v` -/
  | apart (x : Letter) (v : Str)
  /-- `-g`, `-Wall`, ...: for the C compiler -/
  | pass (a : Str)
  | file (a : Str)

/-- how it is written -/
def Item.render : Item → List Str
  | .flag _ t => [t]
  | .cc v => ["--cc".toList, v]
  | .joined x v => ['-' :: x.char :: v]
  | .apart x v => [['-', x.char], v]
  | .pass a => [a]
  | .file a => [a]

/-- it is written as the usage text says -/
def Item.Wf : Item → Prop
  | .flag f t => t ∈ f.text
  | .cc _ => True
  | .joined _ v => v ≠ []
  | .apart _ _ => True
  | .pass a => ∃ c r, a = '-' :: c :: r ∧ c ∉ ['-', 'o', 'I', 'L', 'l', 'O', 'D'] ∧ a ∉ ["-v".toList, "-q".toList, "-V".toList]
  | .file a => a.head? ≠ some '-'

/-- the value of an option with this letter -/
def Item.val (x : Letter) : Item → Option Str
  | .joined y v | .apart y v => if x = y then some v else none
  | _ => none

/-- a file -/
def Item.asFile : Item → Option Str
  | .file a => some a
  | _ => none

/-- a flag is given -/
def given (f : Flag) (l : List Item) : Bool := l.any fun | .flag g _ => g = f | _ => false

/-- flags for the C compiler -/
def Item.asFlag : Item → Option Str
  | .joined .I v | .apart .I v => some ("-I".toList ++ v)
  | .joined .O v | .apart .O v => some ("-O".toList ++ v)
  | .joined .D v | .apart .D v => some ("-D".toList ++ v)
  | .pass a => some a
  | _ => none

/-- flags for the linker -/
def Item.asLink : Item → Option Str
  | .joined .L v | .apart .L v => some ("-L".toList ++ v)
  | .joined .l v | .apart .l v => some ("-l".toList ++ v)
  | _ => none

/-- the C compiler -/
def Item.asCc : Item → Option Str
  | .cc v => some (if v = "zig".toList then "zig cc".toList else v.take 63)
  | .flag .cpp _ => some "g++".toList
  | .flag .cuda _ => some "nvcc".toList
  | _ => none

/-- What the parts mean: each option for itself, wherever it stands; values in their order. -/
structure Means (l : List Item) (c0 c : Config) : Prop where
  run : c.run = c0.run
  transpile : c.transpile = c0.transpile
  check : c.check = (c0.check || given .check l)
  emitC : c.emitC = (c0.emitC || given .emitC l)
  json : c.json = (c0.json || given .json l)
  keepComments : c.keepComments = (c0.keepComments || given .keepComments l)
  verbose : c.verbose = (c0.verbose || given .verbose l)
  quiet : c.quiet = (c0.quiet || given .quiet l)
  noZen : c.noZen = (c0.noZen || given .noZen l)
  typecheck : c.typecheck = (c0.typecheck || given .typecheck l)
  freestanding : c.freestanding = (c0.freestanding || given .freestanding l)
  cpp : c.cpp = (c0.cpp || given .cpp l || given .cuda l)
  cuda : c.cuda = (c0.cuda || given .cuda l)
  objc : c.objc = (c0.objc || given .objc l)
  cc : c.cc = (l.filterMap Item.asCc).getLast?.getD c0.cc
  output : c.output = (l.filterMap (Item.val .o)).getLast?.or c0.output
  flags : c.flags = c0.flags ++ l.filterMap Item.asFlag
  link : c.link = c0.link ++ l.filterMap Item.asLink
  includes : c.includes = (c0.includes ++ l.filterMap (Item.val .I)).take 64
  defines : c.defines = (c0.defines ++ (l.filterMap (Item.val .D)).map (·.takeWhile (· != '='))).take 64
  files : (c.input.toList ++ c.extra) = (c0.input.toList ++ c0.extra ++ l.filterMap Item.asFile).take 65

/-- the configuration a command starts with -/
def modeOf (w : Str) : Option Config :=
  if w = "build".toList then some {}
  else if w = "run".toList then some { run := true }
  else if w = "check".toList then some { check := true }
  else if w = "transpile".toList then some { transpile := true, emitC := true }
  else none

/-- is it a file -/
def Item.isFile : Item → Bool
  | .file _ => true
  | _ => false

/-- an argument that only asks for the version or the paths -/
def Asks (a : Str) : Prop := a ∈ ["--version".toList, "-V".toList, "--paths".toList]

/-- the input file can be read -/
def Readable (E : Env) (c : Config) (fs : Fs) : Prop := ∃ f x, c.input = some f ∧ fs (resolve E.cwd f) = some x

/-- the same files but for these -/
def SameBut (ps : List Path) (fs fs' : Fs) : Prop := ∀ q, q ∉ ps → fs' q = fs q

end Spec

end Verif.Driver
