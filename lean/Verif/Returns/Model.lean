/-!
# The flow check for missing returns

Transcription of `stmt_always_returns` and `block_always_returns`
(/repo/src/analysis/typecheck.c:836-912), which `check_function`
(/repo/src/analysis/typecheck.c:948-960) applies to the body of every function that is not
`void` and not `main`, with a semantics of the C code emitted for the statements
(/repo/src/codegen/codegen_stmt.c).

Conditions and matched values are not modelled: every test may come out either way, so the
executions of the model include all executions of the program.
-/

namespace Verif.Returns

mutual
/-- Statements, as far as the check distinguishes them (/repo/src/ast/ast.h:115-179).  All
loops (`while`, `for`, `do`, `loop`, `repeat`, ranges) are one constructor, as the check
answers 0 for each of them; every statement without control flow is `simple`; `unless` and
`guard` are `cond1`. -/
inductive Stmt where
  | ret
  | simple
  | brk
  | cont
  | goto (label : String)
  | label (label : String)
  | block (body : Stmts)
  | ite (then_ else_ : Stmt)
  | cond1 (body : Stmt)
  | ifOnly (body : Stmt)
  | mtch (arms : Arms)
  | loop (body : Stmt)
/-- Statement lists (`next` pointers). -/
inductive Stmts where
  | nil
  | cons (s : Stmt) (r : Stmts)
/-- Arms of a match: `is_default`, has a guard, body (/repo/src/ast/ast.h:366-376). -/
inductive Arms where
  | nil
  | cons (isDefault guarded : Bool) (body : Stmt) (r : Arms)
end

mutual
/-- `stmt_always_returns` (/repo/src/analysis/typecheck.c:836-894).  For a match without arms
the code answers 0 at once, here because there is no default arm. -/
def stmtAlways : Stmt → Bool
  | .ret => true
  | .block b => blockAlways b
  | .ite t e => stmtAlways t && stmtAlways e
  | .ifOnly _ => false
  | .mtch a => armsAlways a && hasDefault a
  | .loop _ => false
  | .simple => false
  | .brk => false
  | .cont => false
  | .goto _ => false
  | .label _ => false
  | .cond1 _ => false
/-- `block_always_returns` (/repo/src/analysis/typecheck.c:896-912). -/
def blockAlways : Stmts → Bool
  | .nil => false
  | .cons s r => if stmtAlways s then true else blockAlways r
/-- Every body of the match returns (/repo/src/analysis/typecheck.c:868-876). -/
def armsAlways : Arms → Bool
  | .nil => true
  | .cons _ _ b r => stmtAlways b && armsAlways r
/-- `has_default` (/repo/src/analysis/typecheck.c:877-884). -/
def hasDefault : Arms → Bool
  | .nil => false
  | .cons d _ _ r => d || hasDefault r
end

namespace Spec

/-- How the execution of a statement ends. -/
inductive Out where
  | normal
  | ret
  | brk
  | cont
  | jump (label : String)
  deriving DecidableEq

/-- The statements behind a label of a statement list. -/
def afterLabel (l : String) : Stmts → Option Stmts
  | .nil => none
  | .cons (.label m) r => if m = l then some r else afterLabel l r
  | .cons _ r => afterLabel l r

mutual
/-- `Exec honour s o`: some execution of the statement ends with `o`.  `honour` says whether
the guards of match arms are tested; the emitted code does not test them
(/repo/src/codegen/codegen_stmt.c:330-370 emits the pattern only). -/
inductive Exec (honour : Bool) : Stmt → Out → Prop where
  | ret : Exec honour .ret .ret
  | simple : Exec honour .simple .normal
  | brk : Exec honour .brk .brk
  | cont : Exec honour .cont .cont
  | goto (l) : Exec honour (.goto l) (.jump l)
  | label (l) : Exec honour (.label l) .normal
  | block (b o) : ExecL honour b o → (∀ l, o = .jump l → afterLabel l b = none) →
      Exec honour (.block b) o
  | blockJump (b l r o) : ExecL honour b (.jump l) → afterLabel l b = some r →
      ExecL honour r o → (∀ l, o = .jump l → afterLabel l b = none) → Exec honour (.block b) o
  | iteT (t e o) : Exec honour t o → Exec honour (.ite t e) o
  | iteE (t e o) : Exec honour e o → Exec honour (.ite t e) o
  | cond1T (b o) : Exec honour b o → Exec honour (.cond1 b) o
  | cond1F (b) : Exec honour (.cond1 b) .normal
  | ifT (b o) : Exec honour b o → Exec honour (.ifOnly b) o
  | ifF (b) : Exec honour (.ifOnly b) .normal
  | mtch (a o) : ExecA honour a o → Exec honour (.mtch a) o
  | loopEnd (b) : Exec honour (.loop b) .normal
  | loopNext (b o) : Exec honour b .normal → Exec honour (.loop b) o → Exec honour (.loop b) o
  | loopCont (b o) : Exec honour b .cont → Exec honour (.loop b) o → Exec honour (.loop b) o
  | loopBrk (b) : Exec honour b .brk → Exec honour (.loop b) .normal
  | loopRet (b) : Exec honour b .ret → Exec honour (.loop b) .ret
  | loopJump (b l) : Exec honour b (.jump l) → Exec honour (.loop b) (.jump l)
/-- Executions of a statement list. -/
inductive ExecL (honour : Bool) : Stmts → Out → Prop where
  | nil : ExecL honour .nil .normal
  | next (s r o) : Exec honour s .normal → ExecL honour r o → ExecL honour (.cons s r) o
  | stop (s r o) : Exec honour s o → o ≠ .normal → ExecL honour (.cons s r) o
/-- Executions of a match: an arm is taken, or it does not match and the next one is tried;
the arm `_` always matches. -/
inductive ExecA (honour : Bool) : Arms → Out → Prop where
  | none : ExecA honour .nil .normal
  | take (d g b r o) : Exec honour b o → ExecA honour (.cons d g b r) o
  | skip (d g b r o) : (d = true → honour = true ∧ g = true) → ExecA honour r o →
      ExecA honour (.cons d g b r) o
end

mutual
/-- No `goto` anywhere. -/
def noGoto : Stmt → Bool
  | .goto _ => false
  | .block b => noGotoL b
  | .ite t e => noGoto t && noGoto e
  | .cond1 b => noGoto b
  | .ifOnly b => noGoto b
  | .mtch a => noGotoA a
  | .loop b => noGoto b
  | _ => true
/-- No `goto` in a list. -/
def noGotoL : Stmts → Bool
  | .nil => true
  | .cons s r => noGoto s && noGotoL r
/-- No `goto` in arms. -/
def noGotoA : Arms → Bool
  | .nil => true
  | .cons _ _ b r => noGoto b && noGotoA r
end

mutual
/-- `break` and `continue` occur in loops only (C rejects anything else). -/
def exitsInLoops : Stmt → Bool
  | .brk => false
  | .cont => false
  | .block b => exitsInLoopsL b
  | .ite t e => exitsInLoops t && exitsInLoops e
  | .cond1 b => exitsInLoops b
  | .ifOnly b => exitsInLoops b
  | .mtch a => exitsInLoopsA a
  | .loop _ => true
  | _ => true
/-- In a list. -/
def exitsInLoopsL : Stmts → Bool
  | .nil => true
  | .cons s r => exitsInLoops s && exitsInLoopsL r
/-- In arms. -/
def exitsInLoopsA : Arms → Bool
  | .nil => true
  | .cons _ _ b r => exitsInLoops b && exitsInLoopsA r
end

end Spec

end Verif.Returns
