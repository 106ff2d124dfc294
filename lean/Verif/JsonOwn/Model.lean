import Verif.Basic

/-!
# Model of the memory of JSON values

`JsonValue` of the standard library: making values, `push`, `set`, `get`, `at`, `len`, `free` (std/json.zc:179-259, 330-452). A value is a tag with a pointer;
arrays and objects hold pointers to values of their own on the heap.

Simplified: a `Vec` with its data, and a `Map` with its arrays and the copies of its keys, are one block each (their own memory is that of `Verif.Vec` and
`Verif.HashMap`); keys are numbers; numbers, booleans and null are one kind of value (`plain`); entries of an object are in the order in which they were set, not in that
of the slots of the table. `malloc` does not fail. The copies of keys that are lost when a table grows (std/map.zc:92-117) are not part of this model.
-/

namespace Verif.JsonOwn

/-- A `JsonValue` (json.zc:20-28). -/
inductive Val where
  | plain
  | str (l : Nat)
  | arr (l : Nat)
  | obj (l : Nat)
  deriving DecidableEq, Repr

/-- Blocks of memory: the text of a string, a value on the heap, the pointers of an array, the keys and pointers of an object. -/
inductive Blk where
  | chars
  | cell (v : Val)
  | vec (items : List Nat)
  | map (es : List (Nat × Nat))
  deriving DecidableEq, Repr

/-- The heap; addresses from `next` on are not in use. -/
structure Heap where
  get : Nat → Option Blk
  next : Nat

/-- `malloc`, with what is then written. -/
def alloc (h : Heap) (b : Blk) : Heap × Nat :=
  (⟨fun l => if l = h.next then some b else h.get l, h.next + 1⟩, h.next)

/-- `free`; `none`: the block is not in use (undefined behaviour). -/
def dealloc (h : Heap) (l : Nat) : Option Heap :=
  if (h.get l).isSome then some { h with get := fun k => if k = l then none else h.get k } else none

/-- A write to a block in use. -/
def store (h : Heap) (l : Nat) (b : Blk) : Heap := { h with get := fun k => if k = l then some b else h.get k }

/-- `JsonValue::string` (json.zc:191-193). -/
def newStr (h : Heap) : Heap × Val := let (h, l) := alloc h .chars; (h, .str l)

/-- `JsonValue::array` (json.zc:195-199). -/
def newArr (h : Heap) : Heap × Val := let (h, l) := alloc h (.vec []); (h, .arr l)

/-- `JsonValue::object` (json.zc:201-205). -/
def newObj (h : Heap) : Heap × Val := let (h, l) := alloc h (.map []); (h, .obj l)

/-- One child: its parts, then itself (json.zc:432-434, 444-446). -/
def freeCell (rec : Heap → Val → Option Heap) (h : Heap) (p : Nat) : Option Heap :=
  match h.get p with
  | some (.cell v) => (rec h v).bind fun h => dealloc h p
  | _ => none

/-- `free` (json.zc:427-452); the first argument bounds the depth. The pointers are read once, before the loop (the loop does not change them). -/
def free : Nat → Heap → Val → Option Heap
  | 0, _, _ => none
  | _ + 1, h, .plain => some h
  | _ + 1, h, .str l => dealloc h l
  | f + 1, h, .arr l =>
    match h.get l with
    | some (.vec items) => (items.foldlM (freeCell (free f)) h).bind fun h => dealloc h l
    | _ => none
  | f + 1, h, .obj l =>
    match h.get l with
    | some (.map es) => ((es.map (·.2)).foldlM (freeCell (free f)) h).bind fun h => dealloc h l
    | _ => none

/-- `push` (json.zc:247-252). If the value is no array, the parameter `val` is not used: its destructor runs when the function returns
(src/codegen/codegen_stmt.c:796-822, std/json.zc:455-459); otherwise `*p = val` moves it (codegen_utils.c:931-935). -/
def push (f : Nat) (h : Heap) (v w : Val) : Option Heap :=
  match v with
  | .arr l =>
    match (alloc h (.cell w)).1.get l with
    | some (.vec items) => some (store (alloc h (.cell w)).1 l (.vec (items ++ [(alloc h (.cell w)).2])))
    | _ => none
  | _ => free f h w

/-- `Map::put` (std/map.zc:119-145): an existing key keeps its place and gets the new value. -/
def put (k p : Nat) : List (Nat × Nat) → List (Nat × Nat)
  | [] => [(k, p)]
  | (k', q) :: r => if k' = k then (k', p) :: r else (k', q) :: put k p r

/-- `set` (json.zc:254-259) -/
def set (f : Nat) (h : Heap) (v : Val) (k : Nat) (w : Val) : Option Heap :=
  match v with
  | .obj l =>
    match (alloc h (.cell w)).1.get l with
    | some (.map es) => some (store (alloc h (.cell w)).1 l (.map (put k (alloc h (.cell w)).2 es)))
    | _ => none
  | _ => free f h w

/-- `get` (json.zc:333-341): a pointer to the value, if the value is an object that has the key. -/
def get (h : Heap) (v : Val) (k : Nat) : Option Nat :=
  match v with
  | .obj l =>
    match h.get l with
    | some (.map es) => es.lookup k
    | _ => none
  | _ => none

/-- `at` (json.zc:407-415) -/
def at' (h : Heap) (v : Val) (i : Nat) : Option Nat :=
  match v with
  | .arr l =>
    match h.get l with
    | some (.vec items) => items[i]?
    | _ => none
  | _ => none

/-- `len` (json.zc:417-425) -/
def len (h : Heap) (v : Val) : Nat :=
  match v with
  | .arr l => match h.get l with
    | some (.vec items) => items.length
    | _ => 0
  | .obj l => match h.get l with
    | some (.map es) => es.length
    | _ => 0
  | _ => 0

mutual
/-- A program that builds a value: arrays with `push` of what was built before, objects with `set`. -/
inductive Prog where
  | plain
  | str
  | arr (xs : Progs)
  | obj (es : Fields)
inductive Progs where
  | nil
  | cons (x : Prog) (r : Progs)
inductive Fields where
  | nil
  | cons (k : Nat) (x : Prog) (r : Fields)
end

mutual
/-- Running it. (A variable that is passed to `push` or `set` is moved, so that its own destructor does nothing: `Verif.Move`, `Verif.Defer`.) -/
def build (f : Nat) : Prog → Heap → Option (Heap × Val)
  | .plain, h => some (h, .plain)
  | .str, h => some (newStr h)
  | .arr xs, h => (pushes f xs (newArr h).1 (newArr h).2).map fun h' => (h', (newArr h).2)
  | .obj es, h => (sets f es (newObj h).1 (newObj h).2).map fun h' => (h', (newObj h).2)
/-- `v.push(x)` for one after the other. -/
def pushes (f : Nat) : Progs → Heap → Val → Option Heap
  | .nil, h, _ => some h
  | .cons x r, h, v => (build f x h).bind fun p => (push f p.1 v p.2).bind fun h => pushes f r h v
/-- `v.set(k, x)` for one after the other. -/
def sets (f : Nat) : Fields → Heap → Val → Option Heap
  | .nil, h, _ => some h
  | .cons k x r, h, v => (build f x h).bind fun p => (set f p.1 v k p.2).bind fun h => sets f r h v
end

/-! ## specification -/

namespace Spec

mutual
/-- A JSON value is in memory: `ls` are its blocks. -/
def Rep (h : Heap) : Prog → Val → List Nat → Prop
  | .plain, v, ls => v = .plain ∧ ls = []
  | .str, v, ls => ∃ l, v = .str l ∧ h.get l = some .chars ∧ ls = [l]
  | .arr xs, v, ls => ∃ l items ls', v = .arr l ∧ h.get l = some (.vec items) ∧ RepItems h xs items ls' ∧ ls = l :: ls'
  | .obj es, v, ls => ∃ l ps ls', v = .obj l ∧ h.get l = some (.map ps) ∧ RepFields h es ps ls' ∧ ls = l :: ls'
def RepItems (h : Heap) : Progs → List Nat → List Nat → Prop
  | .nil, items, ls => items = [] ∧ ls = []
  | .cons j r, items, ls => ∃ p its v l1 l2, items = p :: its ∧ h.get p = some (.cell v) ∧ Rep h j v l1 ∧ RepItems h r its l2 ∧ ls = p :: (l1 ++ l2)
def RepFields (h : Heap) : Fields → List (Nat × Nat) → List Nat → Prop
  | .nil, ps, ls => ps = [] ∧ ls = []
  | .cons k j r, ps, ls => ∃ p qs v l1 l2, ps = (k, p) :: qs ∧ h.get p = some (.cell v) ∧ Rep h j v l1 ∧ RepFields h r qs l2 ∧ ls = p :: (l1 ++ l2)
end

/-- A value that owns its blocks. -/
def Owned (h : Heap) (j : Prog) (v : Val) (ls : List Nat) : Prop := Rep h j v ls ∧ ls.Nodup

/-- The heap without some blocks. -/
def without (h : Heap) (ls : List Nat) : Heap := { h with get := fun l => if l ∈ ls then none else h.get l }

/-- Keys of an object. -/
def Fields.keys : Fields → List Nat
  | .nil => []
  | .cons k _ r => k :: Fields.keys r

mutual
/-- The keys of every object are different. -/
def Distinct : Prog → Prop
  | .plain => True
  | .str => True
  | .arr xs => DistinctAll xs
  | .obj es => (Fields.keys es).Nodup ∧ DistinctFields es
def DistinctAll : Progs → Prop
  | .nil => True
  | .cons x r => Distinct x ∧ DistinctAll r
def DistinctFields : Fields → Prop
  | .nil => True
  | .cons _ x r => Distinct x ∧ DistinctFields r
end

/-- Addresses from `next` on are not in use. -/
def WF (h : Heap) : Prop := ∀ l, h.next ≤ l → h.get l = none

end Spec
end Verif.JsonOwn
