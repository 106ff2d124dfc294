import Verif.Probe
import Verif.Str.Model

/-!
# Model of `std/json.zc`

The parser walks a `const char*` towards the terminating NUL.  A pointer into the text is
modelled by the list of the bytes from there up to (not including) the NUL, so `**p` is the
first byte, or 0 at the end; moving the pointer past the NUL is `Run.ub` (`adv`).
Heap nodes are values of the tree type `Json`; leaks on the error paths are not modelled.
Recursion depth (the C stack) is not bounded in the model.
-/

namespace Verif.Json
open Verif Verif.Str

mutual
/-- `JsonValue` (std/json.zc 21-28): the tag together with the one field in use for that tag.
`N` stands for `double`. -/
inductive Json (N : Type) where
  | null
  | bool (b : Bool)
  | num (n : N)
  | str (t : List Byte)
  | arr (xs : Items N)
  | obj (es : Entries N)
/-- contents of the `Vec<JsonValue*>` of an array -/
inductive Items (N : Type) where
  | nil
  | cons (v : Json N) (xs : Items N)
/-- the occupied slots of the `Map<JsonValue*>` of an object, in slot order -/
inductive Entries (N : Type) where
  | nil
  | cons (k : List Byte) (v : Json N) (es : Entries N)
end

variable {N : Type}

/-- append at the end: `Vec.push` (std/vec.zc; see `Verif.Vec` for the real code) -/
def Items.snoc : Items N → Json N → Items N
  | .nil, v => .cons v .nil
  | .cons w xs, v => .cons w (xs.snoc v)

/-- the entry stored under a key (std/map.zc `get`) -/
def Entries.get : Entries N → List Byte → Option (Json N)
  | .nil, _ => none
  | .cons k v es, q => if k = q then some v else es.get q

/-- the keys in slot order -/
def Entries.keys : Entries N → List (List Byte)
  | .nil => []
  | .cons k _ es => k :: es.keys

/-- `Map.put` (std/map.zc) on the slot list.  Which slot a new key takes, and how a growing table
reorders its slots, depends on the hash function; here `put` is any function that updates the
finite map (that the table does so is property C07, module `Verif.HashMap`). -/
structure Table (N : Type) where
  put : Entries N → List Byte → Json N → Entries N
  get_put : ∀ es k v q, (put es k v).get q = if q = k then some v else es.get q

/-- The C library's number conversions: `sprintf "%.15g"` and `strtod`.
`strtod p = some (x, r)`: a number was read and `end = r`; `none`: `end == p`.
The laws are what ISO C promises about where `end` points. -/
structure NumIO (N : Type) where
  fmt : N → List Byte
  strtod : List Byte → Option (N × List Byte)
  strtod_end : ∀ p x r, strtod p = some (x, r) → r.length < p.length

/-- `(*p)++`; undefined once the NUL has been passed -/
def adv : List Byte → Run (List Byte)
  | [] => .ub
  | _ :: p => .ok p

/-- `**p` -/
def cur (p : List Byte) : Byte := p.headD 0

/-- std/json.zc 39-41 `_json_skip_ws` -/
def skipWs : List Byte → List Byte
  | [] => []
  | c :: p => if c = 32 ∨ c = 9 ∨ c = 10 ∨ c = 13 then skipWs p else c :: p

/-- `buf[len++] = c` into `char buf[4096]` (std/json.zc 46): undefined past the end -/
def bufPut (buf : List Byte) (c : Byte) : Run (List Byte) :=
  if buf.length < 4096 then .ok (buf ++ [c]) else .ub

/-- the byte an escape stands for (std/json.zc 50-56) -/
def unesc (c : Byte) : Byte :=
  if c = 110 then 10
  else if c = 116 then 9
  else if c = 114 then 13
  else if c = 34 then 34
  else if c = 92 then 92
  else c

/-- std/json.zc 47-64: the loop of `_json_parse_string`, the closing quote and the `strdup`.
Fuel is not needed, the text gets shorter. -/
def strLoop : List Byte → List Byte → Run (List Byte × List Byte)
  | [], buf => do
      let _ ← bufPut buf 0
      pure (buf, [])
  | c :: p, buf =>
      if c = 34 then do
        let _ ← bufPut buf 0
        pure (buf, p)
      else if c = 92 then
        match p with
        | [] => do
            let buf ← bufPut buf c
            strLoop [] buf
        | d :: p => do
            let buf ← bufPut buf (unesc d)
            strLoop p buf
      else do
        let buf ← bufPut buf c
        strLoop p buf

/-- std/json.zc 43-65 `_json_parse_string`; `none` is NULL -/
def parseString (p : List Byte) : Run (Option (List Byte × List Byte)) :=
  if cur p ≠ 34 then .ok none
  else do
    let p ← adv p
    let r ← strLoop p []
    pure (some r)

/-- "null" -/
def sNull : List Byte := [110, 117, 108, 108]
/-- "true" -/
def sTrue : List Byte := [116, 114, 117, 101]
/-- "false" -/
def sFalse : List Byte := [102, 97, 108, 115, 101]

/-- `strncmp(*p, w, strlen w) == 0` for a word without NUL -/
def startsWith (p w : List Byte) : Bool := w.isPrefixOf p

/-- `**p == '-' || (**p >= '0' && **p <= '9')` (std/json.zc 157) -/
def numStart (c : Byte) : Bool := c == 45 || (48 ≤ c && c ≤ 57)

mutual
/-- std/json.zc 124-170 `_json_parse_value`; `none` is NULL.  The first argument is a step budget. -/
def parseValue (io : NumIO N) (tb : Table N) :
    Nat → List Byte → Run (Option (Json N × List Byte))
  | 0, _ => .hang
  | f + 1, p0 =>
      let p := skipWs p0
      if p = [] then .ok none
      else if startsWith p sNull then .ok (some (.null, p.drop 4))
      else if startsWith p sTrue then .ok (some (.bool true, p.drop 4))
      else if startsWith p sFalse then .ok (some (.bool false, p.drop 5))
      else if cur p = 34 then do
        let r ← parseString p
        match r with
        | none => pure none
        | some (s, p) => pure (some (.str s, p))
      else if numStart (cur p) then
        match io.strtod p with
        | none => pure none
        | some (x, r) => pure (some (.num x, r))
      else if cur p = 91 then do
        let p ← adv p
        let p := skipWs p
        if cur p = 93 then do
          let p ← adv p
          pure (some (.arr .nil, p))
        else arrLoop io tb f .nil p
      else if cur p = 123 then do
        let p ← adv p
        let p := skipWs p
        if cur p = 125 then do
          let p ← adv p
          pure (some (.obj .nil, p))
        else objLoop io tb f .nil p
      else pure none
/-- std/json.zc 81-90: the `while (1)` of `_json_parse_array` -/
def arrLoop (io : NumIO N) (tb : Table N) :
    Nat → Items N → List Byte → Run (Option (Json N × List Byte))
  | 0, _, _ => .hang
  | f + 1, xs, p0 => do
      let r ← parseValue io tb f (skipWs p0)
      match r with
      | none => pure none
      | some (v, p) =>
          let p := skipWs p
          if cur p = 93 then do
            let p ← adv p
            pure (some (.arr (xs.snoc v), p))
          else if cur p ≠ 44 then pure none
          else do
            let p ← adv p
            arrLoop io tb f (xs.snoc v) p
/-- std/json.zc 105-121: the `while (1)` of `_json_parse_object` -/
def objLoop (io : NumIO N) (tb : Table N) :
    Nat → Entries N → List Byte → Run (Option (Json N × List Byte))
  | 0, _, _ => .hang
  | f + 1, es, p0 => do
      let r ← parseString (skipWs p0)
      match r with
      | none => pure none
      | some (k, p) =>
          let p := skipWs p
          if cur p ≠ 58 then pure none
          else do
            let p ← adv p
            let r ← parseValue io tb f (skipWs p)
            match r with
            | none => pure none
            | some (v, p) =>
                let p := skipWs p
                let es := tb.put es k v
                if cur p = 125 then do
                  let p ← adv p
                  pure (some (.obj es, p))
                else if cur p ≠ 44 then pure none
                else do
                  let p ← adv p
                  objLoop io tb f es p
end

/-- std/json.zc 172-175, 261-267 `JsonValue::parse`: `none` is `Err("JSON parse error")`.
Whatever follows the value is ignored.  The budget is shown sufficient in `parse_terminates`. -/
def parse (io : NumIO N) (tb : Table N) (text : List Byte) : Run (Option (Json N)) := do
  let r ← parseValue io tb (2 * text.length + 2) text
  pure (r.map Prod.fst)

/-- std/json.zc 483-493: how one byte of a string value is written -/
def escByte (c : Byte) : List Byte :=
  if c = 34 then [92, 34]
  else if c = 92 then [92, 92]
  else if c = 10 then [92, 110]
  else if c = 9 then [92, 116]
  else if c = 13 then [92, 114]
  else if c = 8 then [92, 98]
  else if c = 12 then [92, 102]
  else [c]

/-- std/json.zc 479-494 -/
def escText : List Byte → List Byte
  | [] => []
  | c :: t => escByte c ++ escText t

mutual
/-- std/json.zc 468-523 `stringify`: the bytes appended to the `String` (that `append_c_ptr`
appends exactly its text is property C10).  The literal `"{{"` (506) denotes one brace. -/
def stringify (io : NumIO N) : Json N → List Byte
  | .null => sNull
  | .bool b => if b then sTrue else sFalse
  | .num n => io.fmt n
  | .str t => [34] ++ escText t ++ [34]
  | .arr xs => [91] ++ strItems io true xs ++ [93]
  | .obj es => [123] ++ strEntries io true es ++ [125]
/-- std/json.zc 499-503; the flag is `i == 0` -/
def strItems (io : NumIO N) : Bool → Items N → List Byte
  | _, .nil => []
  | first, .cons v xs =>
      (if first then [] else [44]) ++ stringify io v ++ strItems io false xs
/-- std/json.zc 508-520: keys are written without escaping -/
def strEntries (io : NumIO N) : Bool → Entries N → List Byte
  | _, .nil => []
  | first, .cons k v es =>
      (if first then [] else [44]) ++ [34] ++ k ++ [34, 58] ++ stringify io v
        ++ strEntries io false es
end

namespace Spec

/-- equality of JSON values: arrays element by element, objects as finite maps -/
def Eqv : Json N → Json N → Prop
  | .null, w => w = .null
  | .bool b, w => w = .bool b
  | .num n, w => w = .num n
  | .str t, w => w = .str t
  | .arr xs, w => ∃ ys, w = .arr ys ∧ EqvItems xs ys
  | .obj es, w => ∃ fs, w = .obj fs ∧ (∀ k, (fs.get k).isSome → k ∈ es.keys) ∧ EqvEntries es fs
where
  /-- element by element -/
  EqvItems : Items N → Items N → Prop
    | .nil, ys => ys = .nil
    | .cons x xs, ys => ∃ y ys', ys = .cons y ys' ∧ Eqv x y ∧ EqvItems xs ys'
  /-- every entry of the first is in the second -/
  EqvEntries : Entries N → Entries N → Prop
    | .nil, _ => True
    | .cons k v es, fs => (∃ w, fs.get k = some w ∧ Eqv v w) ∧ EqvEntries es fs

end Spec

end Verif.Json
