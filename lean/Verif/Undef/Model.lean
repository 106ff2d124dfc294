import Verif.Basic
import Verif.CJson.Model

/-!
# Reports of undefined functions

Configuration files and their list of C functions (/repo/src/utils/config.c), names declared `extern` (/repo/src/parser/parser_utils.c:882-917), and the
place where a call of an unknown function is reported (/repo/src/codegen/codegen.c:780-873).

Simplified: names are lists of bytes without zero, compared as `strcmp` does; a configuration file is its bytes up to the first zero (`cJSON_Parse` takes
a C string), or missing; paths are not cut off (`snprintf` into 1024 bytes); `xmalloc` and `xrealloc` succeed and keep contents (unit `CArena`); files
with more than `INT_MAX` entries are left out.
-/

namespace Verif.Undef

open Verif.CJson (Item Items Members parse find)

/-! ## Names declared `extern` -/

/-- `extern_symbols` and `extern_symbol_count`. -/
structure Ext where
  buf : Mem (List Nat)
  count : Nat

/-- The loops over the names (/repo/src/parser/parser_utils.c:885-891, 909-915); `n` entries from `i` on. -/
def search (m : Mem (List Nat)) (x : List Nat) : Nat → Nat → Res Bool
  | _, 0 => .ok false
  | i, n + 1 => Res.bind (Mem.load m i) fun y => if y = x then .ok true else search m x (i + 1) n

/-- `is_extern_symbol` (/repo/src/parser/parser_utils.c:907-917). -/
def isExtern (e : Ext) (x : List Nat) : Res Bool := search e.buf x 0 e.count

/-- `register_extern_symbol` (/repo/src/parser/parser_utils.c:882-905). -/
def register (e : Ext) (x : List Nat) : Res Ext :=
  Res.bind (search e.buf x 0 e.count) fun dup =>
    if dup then .ok e
    else
      let m := if e.count = 0 then Mem.malloc 64 else if e.count % 64 = 0 then Mem.realloc e.buf (e.count + 64) else e.buf
      Res.bind (Mem.store m e.count x) fun m => .ok ⟨m, e.count + 1⟩

/-- All declarations of a program, one after the other. -/
def registerAll (e : Ext) : List (List Nat) → Res Ext
  | [] => .ok e
  | x :: xs => Res.bind (register e x) fun e => registerAll e xs

/-! ## The list of C functions -/

/-- A table of pointers that ends with a null pointer; `none` is no table. -/
abbrev Table := Option (Mem (Option (List Nat)))

/-- The loop that counts (/repo/src/utils/config.c:23-31). -/
def countW : Mem (Option (List Nat)) → Res Nat
  | some none :: _ => .ok 0
  | some (some _) :: m => Res.bind (countW m) fun n => .ok (n + 1)
  | _ => .ub

/-- The entries there are (/repo/src/utils/config.c:22-31). -/
def countT : Table → Res Nat
  | none => .ok 0
  | some m => countW m

/-- `cJSON_GetArraySize` (/repo/src/lsp/cJSON.c:1911-1933). -/
def size : Items → Nat
  | .nil => 0
  | .cons _ l => size l + 1

/-- The loop that adds the texts, and the null pointer (/repo/src/utils/config.c:36-46). -/
def fillW (m : Mem (Option (List Nat))) : Nat → Items → Res (Mem (Option (List Nat)))
  | i, .nil => Mem.store m i none
  | i, .cons (.str s) l => Res.bind (Mem.store m i (some s)) fun m => fillW m (i + 1) l
  | i, .cons _ l => fillW m i l

/-- `append_whitelist` (/repo/src/utils/config.c:8-46). -/
def append (w : Table) (l : Items) : Res Table :=
  if size l = 0 then .ok w
  else
    Res.bind (countT w) fun cur =>
    Res.bind (fillW (Mem.realloc (w.getD []) (cur + size l + 1)) cur l) fun m => .ok (some m)

/-- `"c_functions"` -/
def key : List Nat := [99, 95, 102, 117, 110, 99, 116, 105, 111, 110, 115]

/-- `load_config_file` (/repo/src/utils/config.c:48-86) for a file with these bytes, or a missing one. -/
def load (w : Table) : Option (List Nat) → Res (Table × Bool)
  | none => .ok (w, false)
  | some text =>
      match parse text with
      | none => .ok (w, false)
      | some (.obj m) =>
          match find true key m with
          | some (.arr l) => Res.bind (append w l) fun w => .ok (w, true)
          | _ => .ok (w, true)
      | some _ => .ok (w, true)

/-- The files the compiler looks for: in `ZC_ROOT`, in the directory it is installed in, hidden and visible in the project. -/
structure Files where
  root : Option (List Nat)
  share : Option (List Nat)
  hidden : Option (List Nat)
  visible : Option (List Nat)

/-- `load_all_configs` (/repo/src/utils/config.c:88-118). -/
def loadAll (f : Files) : Res Table :=
  Res.bind (load none f.root) fun r =>
  Res.bind (if r.2 then .ok r else load r.1 f.share) fun r =>
  Res.bind (load r.1 f.hidden) fun r =>
  Res.bind (load r.1 f.visible) fun r => .ok r.1

/-! ## The report -/

/-- The loop over the table (/repo/src/codegen/codegen.c:838-851). -/
def listed (x : List Nat) : Mem (Option (List Nat)) → Res Bool
  | some none :: _ => .ok false
  | some (some y) :: m => if y = x then .ok true else listed x m
  | _ => .ub

/-- The check of the table, if there is one (/repo/src/codegen/codegen.c:837-851). -/
def listedT (x : List Nat) : Table → Res Bool
  | none => .ok false
  | some m => listed x m

/-- `strstr(path, "/std/")` -/
def hasStd : List Nat → Bool
  | [] => false
  | c :: t => (c :: t).take 5 == [47, 115, 116, 100, 47] || hasStd t

/-- What the generator knows: functions and structs, `extern` names, whether each imported module is a C header, paths of imported files, the list. -/
structure Ctx where
  funcs : List (List Nat)
  structs : List (List Nat)
  ext : Ext
  headers : List Bool
  files : List (List Nat)
  table : Table

/-- Whether a call of `x` by its name, with or without names of arguments, is reported (/repo/src/codegen/codegen.c:781-873). -/
def warns (c : Ctx) (named : Bool) (x : List Nat) : Res Bool :=
  if named then .ok false
  else if c.funcs.contains x || c.structs.contains x then .ok false
  else
    let interop := c.headers.any id || c.files.any hasStd
    let internal := x.take 3 == [95, 122, 95] || x.take 2 == [95, 90]
    Res.bind (isExtern c.ext x) fun ext =>
    Res.bind (listedT x c.table) fun wl =>
    .ok (!interop && !internal && !ext && !wl)

/-- A program with its configuration: what is reported for a call of `x`. -/
def run (funcs structs externs : List (List Nat)) (headers : List Bool) (files : List (List Nat)) (f : Files) (named : Bool) (x : List Nat) : Res Bool :=
  Res.bind (loadAll f) fun w => Res.bind (registerAll ⟨[], 0⟩ externs) fun e => warns ⟨funcs, structs, e, headers, files, w⟩ named x

namespace Spec

/-- The elements of an array. -/
def items : Items → List Item
  | .nil => []
  | .cons v l => v :: items l

/-- A configuration text lists a function: the first member called `c_functions` is an array that contains its name. -/
def Lists (text : List Nat) (x : List Nat) : Prop :=
  ∃ m l, parse text = some (.obj m) ∧ ((CJson.Spec.list m).find? (fun p => p.1 == key)).map (·.2) = some (.arr l) ∧ .str x ∈ items l

/-- The files that count: the one in `ZC_ROOT`, or, if it is not there or no JSON, the installed one; and those of the project. -/
def Counts (f : Files) (text : List Nat) : Prop :=
  f.root = some text ∨ (f.share = some text ∧ ∀ t, f.root = some t → parse t = none) ∨ f.hidden = some text ∨ f.visible = some text

/-- A function may be called: it is defined or declared in the program, or listed in a configuration. -/
def Allowed (funcs structs externs : List (List Nat)) (f : Files) (x : List Nat) : Prop :=
  x ∈ funcs ∨ x ∈ structs ∨ x ∈ externs ∨ ∃ text, Counts f text ∧ Lists text x

/-- A path with `/std/` in it. -/
def StdPath (p : List Nat) : Prop := ∃ a b, p = a ++ [47, 115, 116, 100, 47] ++ b

end Spec

end Verif.Undef
