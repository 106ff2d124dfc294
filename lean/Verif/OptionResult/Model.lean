import Verif.Basic

/-!
# `std/option.zc` and `std/result.zc`

Methods take `self` by pointer, so `unwrap` and `forget` change the object.  `zero` is the value
whose representation is all zero bytes (`memset(&self.val, 0, sizeof(T))`).
-/

namespace Verif.OptionResult
open Verif

variable {α : Type}

/-- `struct Option<T>` (std/option.zc:4-7). -/
structure Opt (α : Type) where
  isSome : Bool
  val : α
  deriving DecidableEq, Repr

/-- `Option::Some` (std/option.zc:10-12). -/
def mkSome (v : α) : Opt α := ⟨true, v⟩
/-- `Option::None` (std/option.zc:14-16). -/
def mkNone (zero : α) : Opt α := ⟨false, zero⟩

/-- Calls on an option. -/
inductive Call (α : Type) where
  | isSome
  | isNone
  | forget
  | unwrap
  | unwrapRef
  | unwrapOr (d : α)
  | expect
  | orElse (other : Opt α)

/-- Results of calls. -/
inductive Ret (α : Type) where
  | unit
  | bool (b : Bool)
  | val (a : α)
  | opt (o : Opt α)
  deriving DecidableEq, Repr

/-- One call (std/option.zc:18-68); `unwrap_ref` is modelled by the value read through the
pointer it returns. -/
def step (zero : α) (o : Opt α) : Call α → Res (Opt α × Ret α)
  | .isSome => .ok (o, .bool o.isSome)
  | .isNone => .ok (o, .bool (!o.isSome))
  | .forget => .ok ({ o with val := zero }, .unit)
  | .unwrap => if !o.isSome then .panic else .ok ({ o with val := zero }, .val o.val)
  | .unwrapRef => if !o.isSome then .panic else .ok (o, .val o.val)
  | .unwrapOr d => if o.isSome then .ok (o, .val o.val) else .ok (o, .val d)
  | .expect => if !o.isSome then .panic else .ok (o, .val o.val)
  | .orElse other => if o.isSome then .ok (o, .opt o) else .ok (o, .opt other)

/-- A history of calls. -/
def run (zero : α) (o : Opt α) : List (Call α) → Res (List (Ret α))
  | [] => .ok []
  | c :: cs => do
    let (o, r) ← step zero o c
    let rs ← run zero o cs
    pure (r :: rs)

/-- `struct Result<T>` (std/result.zc:3-7); `err` is the error text. -/
structure Result (α : Type) where
  isOk : Bool
  val : α
  err : Option String
  deriving DecidableEq, Repr

/-- `Result::Ok` (std/result.zc:10-12). -/
def mkOk (v : α) : Result α := ⟨true, v, none⟩
/-- `Result::Err` (std/result.zc:14-16). -/
def mkErr (zero : α) (e : String) : Result α := ⟨false, zero, some e⟩

/-- Calls on a result. -/
inductive RCall where
  | isOk
  | isErr
  | forget
  | unwrap
  | unwrapRef
  | expect

/-- One call (std/result.zc:18-57). -/
def rstep (zero : α) (o : Result α) : RCall → Res (Result α × Ret α)
  | .isOk => .ok (o, .bool o.isOk)
  | .isErr => .ok (o, .bool (!o.isOk))
  | .forget => .ok ({ o with val := zero }, .unit)
  | .unwrap => if !o.isOk then .panic else .ok ({ o with val := zero }, .val o.val)
  | .unwrapRef => if !o.isOk then .panic else .ok (o, .val o.val)
  | .expect => if !o.isOk then .panic else .ok (o, .val o.val)

/-- A history of calls. -/
def rrun (zero : α) (o : Result α) : List RCall → Res (List (Ret α))
  | [] => .ok []
  | c :: cs => do
    let (o, r) ← rstep zero o c
    let rs ← rrun zero o cs
    pure (r :: rs)

end Verif.OptionResult
