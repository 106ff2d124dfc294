import Verif.Basic

/-!
# Model of the lists of cJSON

Arrays and objects of the language server are doubly linked lists (src/lsp/cJSON.c): `child` of the array points to the first item, `next` to the next
one, `prev` to the one before, and `prev` of the first item to the last.

Simplified: pointers are numbers, `NULL` is `none`; values and names of items, and the memory for them, are left out: the unit `CJson` has them.
-/

namespace Verif.CJsonList

/-- The links of all items. -/
structure Heap where
  next : Nat → Option Nat
  prev : Nat → Option Nat
  child : Nat → Option Nat

/-- Setting one place. -/
def upd (f : Nat → Option Nat) (a : Nat) (v : Option Nat) : Nat → Option Nat := fun b => if b = a then v else f b

def Heap.setNext (h : Heap) (a : Nat) (v : Option Nat) : Heap := { h with next := upd h.next a v }
def Heap.setPrev (h : Heap) (a : Nat) (v : Option Nat) : Heap := { h with prev := upd h.prev a v }
def Heap.setChild (h : Heap) (a : Nat) (v : Option Nat) : Heap := { h with child := upd h.child a v }

/-- `add_item_to_array` (cJSON.c:2046-2076) with `suffix_object` (2022-2026); the items are not `NULL` and `array` is not `item`. -/
def add (h : Heap) (p x : Nat) : Heap :=
  match h.child p with
  | none => ((h.setChild p (some x)).setPrev x (some x)).setNext x none
  | some c =>
    match h.prev c with
    | some l => ((h.setNext l (some x)).setPrev x (some l)).setPrev c (some x)
    | none => h

/-- `get_array_item` (cJSON.c:1939-1957): `index` steps from an item. -/
def walk (h : Heap) : Option Nat → Nat → Option Nat
  | none, _ => none
  | some c, 0 => some c
  | some c, i + 1 => walk h (h.next c) i

/-- `get_array_item` (cJSON.c:1939-1957). -/
def get (h : Heap) (p i : Nat) : Option Nat := walk h (h.child p) i

/-- The loop of `cJSON_GetArraySize` (cJSON.c:1923-1927), with a bound of its steps. -/
def sizeFrom (h : Heap) : Nat → Option Nat → Nat
  | 0, _ => 0
  | _, none => 0
  | f + 1, some c => sizeFrom h f (h.next c) + 1

/-- `cJSON_GetArraySize` (cJSON.c:1911-1937). -/
def size (h : Heap) (fuel p : Nat) : Nat := min (sizeFrom h fuel (h.child p)) 2147483647

/-- `cJSON_DetachItemViaPointer` (cJSON.c:2290-2324); `none`: it gives `NULL` and does nothing. -/
def detach (h : Heap) (p x : Nat) : Option Heap :=
  if h.child p ≠ some x ∧ h.prev x = none then none else
  let h1 := if h.child p ≠ some x then
      match h.prev x with
      | some a => h.setNext a (h.next x)
      | none => h
    else h
  let h2 := match h1.next x with
    | some b => h1.setPrev b (h1.prev x)
    | none => h1
  let h3 := if h2.child p = some x then h2.setChild p (h2.next x)
    else if h2.next x = none then
      match h2.child p with
      | some c => h2.setPrev c (h2.prev x)
      | none => h2
    else h2
  some ((h3.setPrev x none).setNext x none)

/-- `cJSON_InsertItemInArray` (cJSON.c:2366-2400) for `which ≥ 0`; `none`: it gives false and does nothing. -/
def insert (h : Heap) (p i x : Nat) : Option Heap :=
  match get h p i with
  | none => some (add h p x)
  | some y =>
    if h.child p ≠ some y ∧ h.prev y = none then none else
    let h1 := ((h.setNext x (some y)).setPrev x (h.prev y)).setPrev y (some x)
    if h1.child p = some y then some (h1.setChild p (some x))
    else
      match h1.prev x with
      | some a => some (h1.setNext a (some x))
      | none => some h1

/-- `cJSON_ReplaceItemViaPointer` (cJSON.c:2402-2449) for an array with items. -/
def replace (h : Heap) (p x r : Nat) : Heap :=
  if r = x then h else
  let h1 := (h.setNext r (h.next x)).setPrev r (h.prev x)
  let h2 := match h1.next r with
    | some b => h1.setPrev b (some r)
    | none => h1
  let h3 := if h2.child p = some x then
      let h3 := if h2.prev x = some x then h2.setPrev r (some r) else h2
      h3.setChild p (some r)
    else
      let h3 := match h2.prev r with
        | some a => h2.setNext a (some r)
        | none => h2
      if h3.next r = none then
        match h3.child p with
        | some c => h3.setPrev c (some r)
        | none => h3
      else h3
  (h3.setNext x none).setPrev x none

/-- What a program does with arrays and items. -/
inductive Op where
  | add (p x : Nat)
  | detach (p x : Nat)
  | insert (p i x : Nat)
  | replace (p x r : Nat)
  deriving DecidableEq, Repr

/-- One call. -/
def step (h : Heap) : Op → Heap
  | .add p x => add h p x
  | .detach p x => (detach h p x).getD h
  | .insert p i x => (insert h p i x).getD h
  | .replace p x r => replace h p x r

/-! ## specification -/

namespace Spec

/-- Arrays are lists of items. -/
abbrev Arrays := Nat → List Nat

def Arrays.set (A : Arrays) (p : Nat) (ls : List Nat) : Arrays := fun q => if q = p then ls else A q

/-- What a call should do. -/
def step (A : Arrays) : Op → Arrays
  | .add p x => A.set p (A p ++ [x])
  | .detach p x => A.set p ((A p).filter (· ≠ x))
  | .insert p i x => A.set p ((A p).take i ++ x :: (A p).drop i)
  | .replace p x r => A.set p ((A p).map fun y => if y = x then r else y)

/-- An item in no array. -/
def Free (A : Arrays) (x : Nat) : Prop := ∀ p, x ∉ A p

/-- Calls as they should be made: items that are put into an array are in none, items that are taken out are in it. -/
def Legal (A : Arrays) : Op → Prop
  | .add _ x => Free A x
  | .detach p x => x ∈ A p
  | .insert _ _ x => Free A x
  | .replace p x r => x ∈ A p ∧ Free A r

/-- A sequence of such calls. -/
def AllLegal : Arrays → List Op → Prop
  | _, [] => True
  | A, op :: ops => Legal A op ∧ AllLegal (step A op) ops

end Spec
end Verif.CJsonList
