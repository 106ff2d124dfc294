import Verif.Basic

/-!
# Spelling suggestions

Transcription of `levenshtein` (/repo/src/utils/utils.c:496-536) and of
`find_similar_symbol` (/repo/src/parser/parser_utils.c:4241-4271).  Names are lists of bytes
without the terminator; `int` is unbounded (names shorter than 2^31) and the stack is large
enough for the matrix.
-/

namespace Verif.Levenshtein

/-- Names. -/
abbrev Name := List UInt8

/-- `int matrix[len1 + 1][len2 + 1]` (/repo/src/utils/utils.c:507); `none` is a cell not yet
written. -/
abbrev Mat := Nat → Nat → Option Nat

/-- Reading `matrix[i][j]`. -/
def load (n1 n2 : Nat) (m : Mat) (i j : Nat) : Res Nat :=
  if i ≤ n1 ∧ j ≤ n2 then
    match m i j with
    | some v => .ok v
    | none => .ub
  else .ub

/-- Writing `matrix[i][j]`. -/
def store (n1 n2 : Nat) (m : Mat) (i j v : Nat) : Res Mat :=
  if i ≤ n1 ∧ j ≤ n2 then .ok (fun a b => if a = i ∧ b = j then some v else m a b) else .ub

/-- Reading `s[i]` for an index below the length. -/
def ch (s : Name) (i : Nat) : Res UInt8 :=
  match s[i]? with
  | some c => .ok c
  | none => .ub

/-- Body of the inner loop (/repo/src/utils/utils.c:522-531). -/
def cell (s1 s2 : Name) (i : Nat) (m : Mat) (j : Nat) : Res Mat := do
  let a ← ch s1 (i - 1)
  let b ← ch s2 (j - 1)
  let cost := if a = b then 0 else 1
  let up ← load s1.length s2.length m (i - 1) j
  let left ← load s1.length s2.length m i (j - 1)
  let diag ← load s1.length s2.length m (i - 1) (j - 1)
  let del := up + 1
  let ins := left + 1
  let sub := diag + cost
  let v := if del < ins then del else ins
  store s1.length s2.length m i j (if sub < v then sub else v)

/-- `levenshtein` (/repo/src/utils/utils.c:496-536). -/
def levenshtein (s1 s2 : Name) : Res Nat :=
  let n1 := s1.length
  let n2 := s2.length
  if ((n1 : Int) - n2).natAbs > 3 then .ok 999
  else do
    let m ← forUp (fun m i => store n1 n2 m i 0 i) 0 (n1 + 1) (fun _ _ => none)
    let m ← forUp (fun m j => store n1 n2 m 0 j j) 0 (n2 + 1) m
    let m ← forUp (fun m i => forUp (cell s1 s2 i) 1 n2 m) 1 n1 m
    load n1 n2 m n1 n2

/-- Body of the search loop (/repo/src/parser/parser_utils.c:4258-4263). -/
def consider (name : Name) (best : Nat × Option Name) (sym : Name) : Res (Nat × Option Name) := do
  let d ← levenshtein name sym
  .ok (if d < best.1 ∧ d ≤ 3 then (d, some sym) else best)

/-- The two nested loops over scopes and symbols, flattened to one list of visible names
(/repo/src/parser/parser_utils.c:4252-4267). -/
def search (name : Name) : List Name → Nat × Option Name → Res (Nat × Option Name)
  | [], b => .ok b
  | x :: xs, b => do
      let b' ← consider name b x
      search name xs b'

/-- `find_similar_symbol` (/repo/src/parser/parser_utils.c:4241-4271). -/
def suggest (name : Name) (syms : List Name) : Res (Option Name) := do
  let r ← search name syms (999, none)
  .ok r.2

namespace Spec

/-- One insertion, deletion or substitution of a single character, anywhere. -/
inductive Edit : Name → Name → Prop
  | ins (p s : Name) (c : UInt8) : Edit (p ++ s) (p ++ c :: s)
  | del (p s : Name) (c : UInt8) : Edit (p ++ c :: s) (p ++ s)
  | sub (p s : Name) (c d : UInt8) : Edit (p ++ c :: s) (p ++ d :: s)

/-- `n` edits in a row. -/
inductive Edits : Name → Name → Nat → Prop
  | nil (a) : Edits a a 0
  | cons {a b c n} : Edit a b → Edits b c n → Edits a c (n + 1)

/-- `d` is the least number of edits. -/
def IsDist (a b : Name) (d : Nat) : Prop :=
  Edits a b d ∧ ∀ n, Edits a b n → d ≤ n

end Spec

end Verif.Levenshtein
