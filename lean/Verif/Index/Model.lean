import Verif.Basic

/-!
# Arrays, slices and their elements

Models the types of arrays and slices (`parse_type_formal`, /repo/src/parser/parser_type.c:690-738 and 888-940;
`type_to_c_string`, /repo/src/ast/ast.c:650-692; `emit_c_decl`, /repo/src/codegen/codegen_utils.c:43-110), elements of them
(/repo/src/parser/parser_expr.c:4137-4250 and 5676-6015; /repo/src/codegen/codegen.c:1004-1129; `_z_check_bounds`,
/repo/src/codegen/codegen_decl.c:1209-1218), parts of them (codegen.c:1130-1205) and arrays as arguments (codegen.c:884-895).

Simplified: memory has one cell for a number or a slice; only numbers are elements; structs with `__index` or `__get`, vectors
and pointers are left out, as is the order in which several indices are evaluated (they are values here).
-/

namespace Verif.Index

/-- The value of an integer converted to a signed type of `w` bits. -/
def signed (w : Nat) (i : Int) : Int := (i + 2 ^ (w - 1)) % 2 ^ w - 2 ^ (w - 1)

/-! ## Types -/

/-- Types: numbers and arrays (`TYPE_ARRAY`); an array of size 0 is a slice. -/
inductive Ty where
  | elem
  | arr (n : Int) (t : Ty)
  deriving DecidableEq

/-- One bracket of a type: `[]` or `[n]`, where `n` is the value of the constant. -/
inductive Dim where
  | open
  | size (n : Int)
  deriving DecidableEq

/-- The size that is kept, parser_type.c:897-926: `(int)compiled_size`, and 0 for `[]`. -/
def Dim.kept : Dim → Int
  | .open => 0
  | .size n => signed 32 n

/-- `T[d1][d2]…`, parser_type.c:933-939: wrapped from the last bracket to the first. `[T; n]` is `T[n]`. -/
def wrap (t : Ty) : List Dim → Ty
  | [] => t
  | d :: ds => .arr d.kept (wrap t ds)

/-- The part of a C type in front of the name: `int32_t`, `Slice_…`. -/
inductive Head where
  | elem
  | slice (h : Head)
  deriving DecidableEq

/-- `type_to_c_string`, ast.c:650-692: the part in front of the brackets and the brackets. `ds` are those collected by the loop so far;
they are written behind the text of what is left. Negative sizes are not collected, and the function calls itself with the same type: `none`. -/
def cText (ds : List Int) : Ty → Option (Head × List Int)
  | .elem => some (.elem, ds)
  | .arr n t =>
    if n = 0 then
      match cText [] t with
      | some (h, es) => some (.slice h, es ++ ds)
      | none => none
    else if 0 < n then cText (ds ++ [n]) t
    else none

/-- C types. -/
inductive CTy where
  | elem
  | slice (t : CTy)
  | arr (n : Int) (t : CTy)
  deriving DecidableEq

/-- What the C compiler makes of the part in front: `struct Slice_T { T *data; int len; int cap; }`, codegen_decl.c:1233-1236. -/
def Head.cty : Head → CTy
  | .elem => .elem
  | .slice h => .slice h.cty

/-- `T x[d1][d2]…` in C: `emit_c_decl` puts the name in front of the first bracket, codegen_utils.c:100-104. -/
def cArr (t : CTy) : List Int → CTy
  | [] => t
  | d :: ds => .arr d (cArr t ds)

/-- The C type of a variable; `none` is a compiler that runs out of stack. -/
def declared (t : Ty) : Option CTy :=
  match cText [] t with
  | some (h, ds) => some (cArr h.cty ds)
  | none => none

/-! ## Memory -/

/-- A cell: a number, or the fields `data` and `len` of a slice. -/
inductive Cell where
  | int (v : Int)
  | slice (data len : Int)
  deriving DecidableEq

/-- Memory; `none` is outside of every object. -/
abbrev Mem := Int → Option Cell

/-- The number of cells. -/
def Ty.cells : Ty → Int
  | .elem => 1
  | .arr n t => if n = 0 then 1 else n * t.cells

/-- `_z_check_bounds(long index, long limit)`, codegen_decl.c:1209-1217; `L` are the bits of `long`. -/
def check (L : Nat) (i n : Int) : Res Int :=
  if signed L i < 0 ∨ n ≤ signed L i then .panic else .ok (signed L i)

/-- The place of `x[i1][i2]…`, codegen.c:1004-1125. Elements of slices are checked if the slice is a variable (`v`), those of arrays always.
An index of a number is rejected by the C compiler. -/
def place (L : Nat) (m : Mem) (v : Bool) : Ty → Int → List Int → Res Int
  | _, a, [] => .ok a
  | .elem, _, _ :: _ => .panic
  | .arr n t, a, i :: is =>
    if n = 0 then
      match m a with
      | some (.slice d len) =>
        if v then
          match check L i len with
          | .ok j => place L m false t (d + j * t.cells) is
          | .panic => .panic
          | .ub => .ub
        else place L m false t (d + i * t.cells) is
      | _ => .ub
    else
      match check L i n with
      | .ok j => place L m false t (a + j * t.cells) is
      | .panic => .panic
      | .ub => .ub

/-- Reading or writing an element. -/
inductive Op where
  | read (is : List Int)
  | write (is : List Int) (v : Int)

/-- Its indices. -/
def Op.ix : Op → List Int
  | .read is => is
  | .write is _ => is

/-- Memory with a cell changed. -/
def put (m : Mem) (a : Int) (c : Cell) : Mem := fun b => if b = a then some c else m b

/-- A variable or a field: whether it is a variable, its type, its place. -/
structure Root where
  var : Bool
  ty : Ty
  at_ : Int

/-- One operation on an element; the number that is read. -/
def step (L : Nat) (m : Mem) (r : Root) : Op → Res (Mem × Option Int)
  | .read is =>
    match place L m r.var r.ty r.at_ is with
    | .ok a =>
      match m a with
      | some (.int w) => .ok (m, some w)
      | _ => .ub
    | .panic => .panic
    | .ub => .ub
  | .write is v =>
    match place L m r.var r.ty r.at_ is with
    | .ok a =>
      match m a with
      | some (.int _) => .ok (put m a (.int v), none)
      | _ => .ub
    | .panic => .panic
    | .ub => .ub

/-- How a program ends. -/
inductive End (S : Type) where
  | done (s : S)
  | stopped
  | ub

/-- Several operations: what is read, and the end. -/
def runs {S O : Type} (f : S → O → Res (S × Option Int)) : S → List O → List (Option Int) × End S
  | s, [] => ([], .done s)
  | s, o :: os =>
    match f s o with
    | .ok (s', w) => ((w :: (runs f s' os).1), (runs f s' os).2)
    | .panic => ([], .stopped)
    | .ub => ([], .ub)

/-- Operations on several variables. -/
def stepAt (L : Nat) (m : Mem) (x : Root × Op) : Res (Mem × Option Int) := step L m x.1 x.2

/-! ## Slices -/

/-- An array given for a slice, codegen.c:884-893: `(Slice_T){.data = a, .len = n, .cap = n}`. -/
def view (a n : Int) : Cell := .slice a n

/-- What is taken a part of. -/
inductive Whole where
  | slice (data len : Int)
  | ptr (a : Int)

/-- Where it is: `_arr.data` or `_arr`, codegen.c:1188-1199. -/
def Whole.data : Whole → Int
  | .slice d _ => d
  | .ptr a => a

/-- The length of the part from `start` on if no end is given, codegen.c:1172-1186. -/
def Whole.rest (start : Int) : Whole → Int
  | .slice _ len => len - start
  | .ptr _ => 0

/-- `int _start = s;`, codegen.c:1157-1165. -/
def partStart : Option Int → Int
  | some s => signed 32 s
  | none => 0

/-- `x.f[s..e]`, codegen.c:1154-1200: `int _start = s; int _len = e - _start;`. -/
def part (w : Whole) (s : Option Int) (e : Option Int) : Cell :=
  .slice (w.data + partStart s) (signed 32 (match e with
    | some e => e - partStart s
    | none => w.rest (partStart s)))

/-- The names in the block around (codegen.c:1154-1170), if the start is a variable: `int _start = _start;` reads the new one. -/
def partVar (w : Whole) (x : String) (env : String → Int) (e : Int) : Res Cell :=
  if x = "_start" then .ub
  else if x = "_arr" then .panic
  else .ok (part w (some (env x)) (some e))

/-! ## Arguments -/

/-- An array as parameter: in C `int32_t p[n]` is a pointer to the array of the caller (codegen_utils.c:100-104), and `n` is
the limit in the checks. -/
def param (n : Int) (a : Int) : Root := ⟨true, .arr n .elem, a⟩

/-! ## Specification -/

namespace Spec

/-- The C type that is meant. -/
def ctype : Ty → CTy
  | .elem => .elem
  | .arr n t => if n = 0 then .slice (ctype t) else .arr n (ctype t)

/-- Sizes of arrays are not negative, and slices do not have arrays as elements. -/
def Plain : Ty → Prop
  | .elem => True
  | .arr n t => 0 ≤ n ∧ Plain t ∧ (n = 0 → ∀ k u, t = .arr k u → k = 0)

/-- Every index is in its range. -/
def Valid : List Int → List Int → Prop
  | [], [] => True
  | d :: ds, i :: is => 0 ≤ i ∧ i < d ∧ Valid ds is
  | _, _ => False

instance : ∀ ds is, Decidable (Valid ds is)
  | [], [] => .isTrue trivial
  | [], _ :: _ => .isFalse fun h => h
  | _ :: _, [] => .isFalse fun h => h
  | _ :: ds, _ :: is =>
    have := instDecidableValid ds is
    inferInstanceAs (Decidable (_ ∧ _ ∧ _))

/-- An array is a function from indices to numbers. -/
abbrev Arr := List Int → Int

/-- An operation on an array: it stops if an index is not in its range. -/
def step (ds : List Int) (A : Arr) : Op → Res (Arr × Option Int)
  | .read is => if Valid ds is then .ok (A, some (A is)) else .panic
  | .write is v => if Valid ds is then .ok (fun js => if js = is then v else A js, none) else .panic

/-- The type with these sizes. -/
def array : List Int → Ty
  | [] => .elem
  | d :: ds => .arr d (array ds)

/-- Sizes of arrays in the range of `int`. -/
def Sizes (ds : List Int) : Prop := ∀ d ∈ ds, 0 < d ∧ d < 2 ^ 31

/-- Indices in the range of `long` or of `unsigned long`. -/
def Fits (L : Nat) (is : List Int) : Prop := ∀ i ∈ is, -2 ^ (L - 1) ≤ i ∧ i < 2 ^ L

/-- The number of elements. -/
def count : List Int → Int
  | [] => 1
  | d :: ds => d * count ds

/-- The array lies in memory from `a` on, in some order of its elements: every element has a place of its own among the first `count ds` cells. -/
structure Lies (ds : List Int) (m : Mem) (a : Int) (A : Arr) (f : List Int → Int) : Prop where
  inside : ∀ is, Valid ds is → a ≤ f is ∧ f is < a + count ds
  apart : ∀ is js, Valid ds is → Valid ds js → f is = f js → is = js
  value : ∀ is, Valid ds is → m (f is) = some (.int (A is))

end Spec

end Verif.Index
