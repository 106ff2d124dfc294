import Verif.HashSet.Lemmas

/-! Property C06: the hash set is a finite set, and every call terminates. -/

namespace Verif.HashSet
open Verif

variable {α : Type} [DecidableEq α]

/-- Generalisation of `set_refines_finite_sets` to any pair of related states. -/
theorem run_refines (hash : α → Nat) (ops : List (Op α)) :
    ∀ (t : Tab α) (l : List α), Holds hash t l →
      ∃ N, ∀ f, N ≤ f → run hash f t ops = .ok (Spec.run l ops) := by
  induction ops with
  | nil => intro t l _; exact ⟨0, fun _ _ => rfl⟩
  | cons op ops ih =>
    intro t l h
    -- the successor state does not depend on the budget once it is large enough
    obtain ⟨t1, e1, h1⟩ := step_refines h op (Nat.le_refl (enough t.cap))
    have hmono : ∃ N, ∀ f, N ≤ f → step hash f t op = .ok (t1, (Spec.step l op).2) ∧
        Holds hash t1 (Spec.step l op).1 := by
      refine ⟨enough t.cap, fun f hf => ⟨?_, h1⟩⟩
      exact step_mono e1 hf
    obtain ⟨N1, hN1⟩ := hmono
    obtain ⟨N2, hN2⟩ := ih t1 _ h1
    refine ⟨max N1 N2, fun f hf => ?_⟩
    unfold run Spec.run
    rw [(hN1 f (by omega)).1]
    simp only [Run.ok_bind, hN2 f (by omega), Run.pure_eq]

/-- **C06.**  For every hash function and every history of calls on a fresh set, with a large
enough step budget (so: without ever looping forever) the history runs to completion and
returns exactly what the same calls return on a mathematical finite set: `add` reports
whether the value was new, `remove` whether it was present, `contains` membership, `length`
the number of members. -/
theorem set_refines_finite_sets (hash : α → Nat) (ops : List (Op α)) :
    ∃ N, ∀ f, N ≤ f → run hash f new ops = .ok (Spec.run [] ops) :=
  run_refines hash ops new [] holds_new

/-- A constant hash (every key collides), with tombstones and re-insertion. -/
example : run (fun _ : Nat => 0) 40 new
    [.add 1, .add 2, .add 3, .remove 2, .contains 3, .add 2, .add 2, .length, .remove 9, .clear,
     .contains 1, .isEmpty] = .ok
    [.bool true, .bool true, .bool true, .bool true, .bool true, .bool true, .bool false, .nat 3,
     .bool false, .unit, .bool false, .bool true] := by decide +kernel

end Verif.HashSet
