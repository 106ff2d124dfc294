import Verif.Basic
import Verif.CJson.Model

/-!
# The buffer that JSON is printed into

`ensure`, `update_offset` and the functions that print a value with them (/repo/src/lsp/cJSON.c:480-668, 960-1086, 1253-1331, 1445-1515, 1617-1676,
1797-1908), down to the bytes of the buffer: what is asked for, where it is written, what is never written.  The texts themselves are those of the unit
`CJson`; here they have to get into the buffer.

Simplified: allocation succeeds; the hooks are `malloc`, `realloc` and `free` (`global_hooks`, cJSON.c:178); `noalloc` is 0 (`cJSON_PrintPreallocated` is
not used); the decimal point of the locale is `.`; `cJSON_Raw` and null strings are left out; what `sprintf` writes into the 26 bytes of `number_buffer` is
given by the item.  `size_t` sums do not wrap, they stay below twice `INT_MAX`.  A text is a list of bytes.
-/

namespace Verif.CJsonBuf

open Verif.CJson

/-- `INT_MAX` -/
def intMax : Nat := 2147483647

/-- `printbuffer` (/repo/src/lsp/cJSON.c:480-489): the bytes, `length`, `offset`, `depth`, `format`. -/
structure P where
  buf : Mem Nat
  len : Nat
  off : Nat
  depth : Nat
  fmt : Bool

/-- `ensure` (/repo/src/lsp/cJSON.c:492-578); `none` is `NULL`, otherwise the pointer is `buffer + offset`. -/
def ensure (p : P) (needed : Nat) : Option P :=
  if p.len > 0 ∧ p.off ≥ p.len then none
  else if needed > intMax then none
  else
    let need := needed + (p.off + 1)
    if need ≤ p.len then some p
    else if need > intMax / 2 then
      if need ≤ intMax then some { p with buf := Mem.realloc p.buf intMax, len := intMax } else none
    else some { p with buf := Mem.realloc p.buf (need * 2), len := need * 2 }

/-- Bytes stored one after the other from a position on. -/
def wr (m : Mem Nat) : Nat → List Nat → Res (Mem Nat)
  | _, [] => .ok m
  | i, x :: xs => Res.bind (Mem.store m i x) fun m => wr m (i + 1) xs

/-- C `strlen`; undefined past the end of the block or on bytes that were never written. -/
def strlen : Mem Nat → Res Nat
  | some 0 :: _ => .ok 0
  | some (_ + 1) :: m => Res.bind (strlen m) fun n => .ok (n + 1)
  | _ => .ub

/-- `update_offset` (/repo/src/lsp/cJSON.c:581-591). -/
def updateOffset (p : P) : Res (Option P) :=
  Res.bind (strlen (p.buf.drop p.off)) fun n => .ok (some { p with off := p.off + n })

/-- Space for `needed` bytes, then the bytes `xs` stored at `offset`, then `offset += k`. -/
def put (p : P) (needed : Nat) (xs : List Nat) (k : Nat) : Res (Option P) :=
  match ensure p needed with
  | none => .ok none
  | some p => Res.bind (wr p.buf p.off xs) fun m => .ok (some { p with buf := m, off := p.off + k })

/-- One step after another; `false` ends the printing. -/
def thn (r : Res (Option P)) (g : P → Res (Option P)) : Res (Option P) :=
  Res.bind r fun
    | none => .ok none
    | some p => g p

/-- A control byte without a letter is printed with `sprintf("u%04x")`, which also stores a terminator (/repo/src/lsp/cJSON.c:1057-1062). -/
def coded (c : Nat) : Bool := c < 32 && c != 8 && c != 12 && c != 10 && c != 13 && c != 9

/-- The loop over the bytes of a string (/repo/src/lsp/cJSON.c:1018-1065). -/
def escLoop (m : Mem Nat) : Nat → List Nat → Res (Mem Nat)
  | _, [] => .ok m
  | i, c :: s =>
      Res.bind (wr m i (printByte c ++ if coded c then [0] else [])) fun m => escLoop m (i + (printByte c).length) s

/-- `print_string_ptr` (/repo/src/lsp/cJSON.c:960-1072). -/
def putString (s : List Nat) (p : P) : Res (Option P) :=
  match ensure p (s.length + escapes s + 3) with
  | none => .ok none
  | some p =>
      if escapes s = 0 then
        Res.bind (wr p.buf p.off (34 :: (s ++ [34, 0]))) fun m => .ok (some { p with buf := m })
      else
        Res.bind (wr p.buf p.off [34]) fun m =>
        Res.bind (escLoop m (p.off + 1) s) fun m =>
        Res.bind (wr m (p.off + (s.length + escapes s) + 1) [34, 0]) fun m => .ok (some { p with buf := m })

/-- `print_number` (/repo/src/lsp/cJSON.c:599-668) for the text that `sprintf` gave. -/
def putNumber (t : List Nat) (p : P) : Res (Option P) :=
  if t.length > 25 then .ok none else put p (t.length + 1) (t ++ [0]) t.length

/-- Entering an array or object: `depth++`. -/
def deeper (p : P) : Res (Option P) := .ok (some { p with depth := p.depth + 1 })

/-- Leaving it: `depth--`. -/
def higher (p : P) : Res (Option P) := .ok (some { p with depth := p.depth - 1 })

/-- The comma between elements (/repo/src/lsp/cJSON.c:1648-1662). -/
def comma (p : P) : Res (Option P) :=
  put p ((if p.fmt then 2 else 1) + 1) (if p.fmt then [44, 32, 0] else [44, 0]) (if p.fmt then 2 else 1)

/-- The tabs before a member (/repo/src/lsp/cJSON.c:1829-1842). -/
def indent (p : P) : Res (Option P) :=
  if p.fmt then put p p.depth (List.replicate p.depth 9) p.depth else .ok (some p)

/-- The colon (/repo/src/lsp/cJSON.c:1851-1862). -/
def colon (p : P) : Res (Option P) :=
  put p (if p.fmt then 2 else 1) (if p.fmt then [58, 9] else [58]) (if p.fmt then 2 else 1)

/-- The end of a member (/repo/src/lsp/cJSON.c:1871-1889). -/
def memberEnd (more : Bool) (p : P) : Res (Option P) :=
  put p ((if p.fmt then 1 else 0) + (if more then 1 else 0) + 1)
    ((if more then [44] else []) ++ (if p.fmt then [10] else []) ++ [0]) ((if p.fmt then 1 else 0) + (if more then 1 else 0))

/-- The end of an object (/repo/src/lsp/cJSON.c:1894-1908): `offset` stays. -/
def objectEnd (p : P) : Res (Option P) :=
  put p (if p.fmt then p.depth + 1 else 2) ((if p.fmt then List.replicate (p.depth - 1) 9 else []) ++ [125, 0]) 0

mutual

/-- `print_value`, `print_array` and `print_object` (/repo/src/lsp/cJSON.c:1445-1515, 1617-1676, 1797-1908). -/
def value : Item → P → Res (Option P)
  | .null, p => put p 5 [110, 117, 108, 108, 0] 0
  | .fls, p => put p 6 [102, 97, 108, 115, 101, 0] 0
  | .tru, p => put p 5 [116, 114, 117, 101, 0] 0
  | .num i, p => putNumber (printInt i) p
  | .real t, p => putNumber t p
  | .str s, p => putString s p
  | .arr l, p => thn (thn (thn (thn (put p 1 [91] 1) deeper) (elems l)) fun p => put p 2 [93, 0] 0) higher
  | .obj m, p =>
      thn (thn (thn (thn (put p ((if p.fmt then 2 else 1) + 1) (if p.fmt then [123, 10] else [123]) (if p.fmt then 2 else 1)) deeper)
        (members m)) objectEnd) higher

/-- The loop of `print_array` (/repo/src/lsp/cJSON.c:1641-1664). -/
def elems : Items → P → Res (Option P)
  | .nil, p => .ok (some p)
  | .cons v .nil, p => thn (value v p) updateOffset
  | .cons v (.cons w l), p => thn (thn (thn (value v p) updateOffset) comma) (elems (.cons w l))

/-- The loop of `print_object` (/repo/src/lsp/cJSON.c:1827-1892). -/
def members : Members → P → Res (Option P)
  | .nil, p => .ok (some p)
  | .cons k v .nil, p =>
      thn (thn (thn (thn (thn (thn (indent p) (putString k)) updateOffset) colon) (value v)) updateOffset) (memberEnd false)
  | .cons k v (.cons k' w m), p =>
      thn (thn (thn (thn (thn (thn (thn (indent p) (putString k)) updateOffset) colon) (value v)) updateOffset) (memberEnd true))
        (members (.cons k' w m))

end

/-- `print` (/repo/src/lsp/cJSON.c:1253-1320): the block that is returned, or `none` for `NULL`. -/
def print (fmt : Bool) (v : Item) : Res (Option (Mem Nat)) :=
  Res.bind (thn (value v ⟨Mem.malloc 256, 256, 0, 0, fmt⟩) updateOffset) fun
    | none => .ok none
    | some p => .ok (some (Mem.realloc p.buf (p.off + 1)))

namespace Spec

mutual

/-- What the library can hold: C strings, `int`s, and texts of other numbers as `sprintf("%1.17g")` writes them. -/
def Holds : Item → Prop
  | .num i => -2147483648 ≤ i ∧ i ≤ 2147483647
  | .real t => 0 ∉ t ∧ t.length ≤ 24
  | .str s => 0 ∉ s
  | .arr l => HoldsAll l
  | .obj m => HoldsMems m
  | _ => True

/-- All elements are such. -/
def HoldsAll : Items → Prop
  | .nil => True
  | .cons v l => Holds v ∧ HoldsAll l

/-- All members are such. -/
def HoldsMems : Members → Prop
  | .nil => True
  | .cons k v m => 0 ∉ k ∧ Holds v ∧ HoldsMems m

end

/-- A text with its terminator, as it is stored. -/
def cstring (t : List Nat) : Mem Nat := (t ++ [0]).map some

end Spec

end Verif.CJsonBuf
