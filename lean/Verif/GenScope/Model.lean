import Verif.Generics.Model

/-!
# Model of the type parameters that are in force

`register_generic`, `is_known_generic` (src/parser/parser_utils.c:676-698) and the places that enter and leave the scope of type parameters:
`parse_function` (src/parser/parser_decl.c:86-97, 193-194), `parse_trait` (src/parser/parser_struct.c:133-178, 259-262), `parse_impl` (283-299, 316-328,
534-541, 680-684, 786-789), `parse_struct` (801-850, 1054-1058), `parse_enum` (1095-1102, 1251-1255).

Simplified: of a declaration its parameters are kept, and the methods in it with theirs.
-/

namespace Verif.GenScope

open Generics (Name)

/-- `known_generics` (src/parser/parser.h:285-288): the names in use, the oldest first; `debt` is by how much `known_generics_count` is below zero. -/
structure St where
  known : List Name
  debt : Nat
  deriving DecidableEq, Repr

/-- `register_generic` (parser_utils.c:676-686): a name that is there is not added; `known_generics[known_generics_count++]` is not checked. -/
def register (st : St) (n : Name) : Res St :=
  if st.debt = 0 ∧ st.known.contains n then .ok st
  else if 0 < st.debt then .ub
  else if 1024 ≤ st.known.length then .ub
  else .ok { st with known := st.known ++ [n] }

/-- Several of them. -/
def registerAll (st : St) : List Name → Res St
  | [] => .ok st
  | n :: ns => do
    let st ← register st n
    registerAll st ns

/-- `known_generics_count -= k`. -/
def drop (st : St) (k : Nat) : St := ⟨st.known.take (st.known.length - k), st.debt + (k - st.known.length)⟩

/-- A declaration: a function with its parameters; a struct (or a declaration without a body) or trait with its parameters; an `impl` block with the
parameter of the first name and, if it is one of a trait, of the second, and the parameters of its methods. -/
inductive Decl where
  | fn (ps : List Name)
  | struct (ps : List Name) (forward : Bool)
  | trait (ps : List Name)
  | enum (p : Option Name)
  | impl (p target : Option Name) (meths : List (List Name))
  deriving DecidableEq, Repr

/-- `parse_function`: what is known in the body; the count is put back to what it was. -/
def function (st : St) (ps : List Name) : Res (List Name) := do
  let st' ← registerAll st ps
  .ok st'.known

/-- Functions one after the other. -/
def functions (st : St) : List (List Name) → Res (List (List Name))
  | [] => .ok []
  | ps :: r => do
    let a ← function st ps
    let b ← functions st r
    .ok (a :: b)

/-- One declaration: the state behind it, and what is known in its bodies. -/
def declare (st : St) : Decl → Res (St × List (List Name))
  | .fn ps => do
    let k ← function st ps
    .ok (st, [k])
  | .struct ps forward => do
    let st' ← registerAll st ps
    .ok (if forward then st' else drop st' ps.length, [st'.known])
  | .trait ps => do
    let st' ← registerAll st ps
    .ok (drop st' ps.length, [st'.known])
  | .enum p => do
    let st' ← registerAll st p.toList
    .ok (drop st' p.toList.length, [st'.known])
  | .impl p target meths => do
    let st' ← registerAll st p.toList
    let st' ← registerAll st' target.toList
    let ks ← functions st' meths
    .ok (drop (drop st' p.toList.length) target.toList.length, ks)

/-- A program. -/
def run (st : St) : List Decl → Res (St × List (List (List Name)))
  | [] => .ok (st, [])
  | d :: D => do
    let (st, k) ← declare st d
    let (st, ks) ← run st D
    .ok (st, k :: ks)

/-! ## specification -/

namespace Spec

/-- The parameters in force in the bodies of a declaration: its own, and those of the method. -/
def scopes : Decl → List (List Name)
  | .fn ps => [ps]
  | .struct ps _ => [ps]
  | .trait ps => [ps]
  | .enum p => [p.toList]
  | .impl p target meths => meths.map fun m => p.toList ++ target.toList ++ m

/-- Two lists of names with the same names. -/
def Same (a b : List Name) : Prop := ∀ n, n ∈ a ↔ n ∈ b

/-- Declarations for which the count is right: parameters that differ, a body. -/
def Fine : Decl → Prop
  | .fn ps => ps.length ≤ 1000
  | .struct ps forward => ps.Nodup ∧ forward = false ∧ ps.length ≤ 1000
  | .trait ps => ps.Nodup ∧ ps.length ≤ 1000
  | .enum _ => True
  | .impl p target meths => (p.toList ++ target.toList).Nodup ∧ ∀ m ∈ meths, m.length ≤ 1000

end Spec
end Verif.GenScope
