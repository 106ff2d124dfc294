import Verif.Stack.Lemmas

/-! Property C05: the stack. -/

namespace Verif.Stack
open Verif
variable {α : Type}

theorem run_refines (m0 : Bool) (ops : List (Op α)) :
    ∀ (s : Nat → Stack α) (t : Nat → List α) (u : Nat → Bool), HoldsAll s t u →
      Spec.NoUnusedClone u ops → run m0 s ops = .ok (Spec.run t ops) := by
  induction ops with
  | nil => intros; rfl
  | cons op ops ih =>
    intro s t u h hn
    obtain ⟨s', hs, hh⟩ := step_refines m0 h op hn.1
    simp only [run, hs, Res.ok_bind, ih s' _ _ hh hn.2, Res.pure_eq, Spec.run]

/-- **C05 (partial).**  Every history of calls on any number of stacks returns what lists
return, with no access outside the buffers.  Missing: histories which clone a stack nothing
was ever pushed on (see `stack_clone_unused_violated`). -/
theorem stack_refines_lists_partial (m0 : Bool) (ops : List (Op α))
    (h : Spec.NoUnusedClone (fun _ => false) ops) :
    run m0 (fun _ => new) ops = .ok (Spec.run (fun _ => []) ops) :=
  run_refines m0 ops _ _ _ (fun _ => holds_new) h

/-- Where `malloc(0)` yields NULL, cloning an unused stack is harmless. -/
theorem clone_unused_null (s : Stack α) (h : s.cap = 0) (hl : s.len = 0) :
    clone true s = .ok ⟨true, [], 0, 0⟩ := by
  simp [clone, h, hl, Mem.memcpy, Mem.malloc]

/-- Non-vacuity of the hypothesis. -/
example : Spec.NoUnusedClone (fun _ => false)
    [Op.push 0 5, .push 0 6, .clone 0 1, .pop 1, .clear 0, .clone 0 2, .push 2 9, .length 1] := by
  simp [Spec.NoUnusedClone, Spec.used, upd]

/-- **C05 violated** (glibc-style `malloc(0)`): cloning a fresh stack and pushing on the clone
writes outside the clone's buffer. -/
theorem stack_clone_unused_violated :
    run false (fun _ => (new : Stack Nat)) [.clone 0 1, .push 1 7] = .ub := by decide

end Verif.Stack
