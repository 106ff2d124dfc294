import Verif.Queue.Lemmas

/-! Property C04: the queue. -/

namespace Verif.Queue
open Verif

theorem run_refines {es : Nat} (ops : List (Op es)) :
    ∀ (s : Nat → Queue) (t : Nat → List (Elem es)) (g : Nat → Nat × Nat), HoldsAll s t g →
      Spec.GoodHistory t g ops → run es s ops = .ok (Spec.run t ops) := by
  induction ops with
  | nil => intros; rfl
  | cons op ops ih =>
    intro s t g h hn
    obtain ⟨s', hs, hh⟩ := step_refines h op hn.1
    simp only [run, hs, Res.ok_bind, ih s' _ _ hh hn.2, Res.pure_eq, Spec.run]

/-- **C04 (partial).**  For every element size, a history of push, pop, clear, clone, free,
length and is_empty calls on any number of queues returns exactly what first-in first-out
lists return.  Missing: histories that grow a queue of multi-byte elements while its oldest
element is not at the start of the block (`queue_grow_wrapped_violated`), and histories that
clone a completely full queue (`queue_clone_full_violated`). -/
theorem queue_refines_fifo_partial {es : Nat} (ops : List (Op es))
    (h : Spec.GoodHistory (fun _ => []) (fun _ => (0, 0)) ops) :
    run es (fun _ => new) ops = .ok (Spec.run (fun _ => []) ops) :=
  run_refines ops _ _ _ (fun _ => holds_new) h

/-- Single-byte elements: growth is always right, only cloning a full queue is excluded. -/
theorem queue_bytes_no_clone_partial (ops : List (Op 1)) (h : ∀ i j, Op.clone i j ∉ ops) :
    run 1 (fun _ => new) ops = .ok (Spec.run (fun _ => []) ops) := by
  apply queue_refines_fifo_partial
  generalize (fun _ => ([] : List (Elem 1))) = t
  generalize (fun _ => ((0, 0) : Nat × Nat)) = g
  induction ops generalizing t g with
  | nil => trivial
  | cons op ops ih =>
    refine ⟨?_, ih (fun i j hm => h i j (List.mem_cons_of_mem _ hm)) _ _⟩
    cases op with
    | push i a => intro _; exact .inl rfl
    | clone i j => exact absurd List.mem_cons_self (h i j)
    | _ => trivial

/-- A two-byte element. -/
def two (a b : UInt8) : Elem 2 := ⟨[a, b], rfl⟩
/-- A one-byte element. -/
def one (a : UInt8) : Elem 1 := ⟨[a], rfl⟩

/-- Non-vacuity: a history of two-byte elements with growth, wrap-around and a clone of a
wrapped queue meets the hypothesis. -/
example : Spec.GoodHistory (fun _ => []) (fun _ => (0, 0))
    ([.push 0 (two 1 1), .push 0 (two 2 2), .pop 0, .push 0 (two 3 3), .push 0 (two 4 4),
      .push 0 (two 5 5), .push 0 (two 6 6), .push 0 (two 7 7), .push 0 (two 8 8), .pop 0,
      .push 0 (two 9 9), .clone 0 1, .pop 1] : List (Op 2)) := by
  simp [Spec.GoodHistory, Spec.Good, Spec.step, Spec.ring, upd]

/-- **C04 violated: growth of a wrapped queue.**  Two-byte elements 1..9: pop one, push nine in
total, so that the ninth push finds a wrapped full ring; the elements that come out are not the
ones that went in. -/
theorem queue_grow_wrapped_violated :
    let ops : List (Op 2) :=
      [.push 0 (two 1 1), .push 0 (two 2 2), .push 0 (two 3 3), .push 0 (two 4 4),
       .push 0 (two 5 5), .push 0 (two 6 6), .push 0 (two 7 7), .push 0 (two 8 8), .pop 0,
       .push 0 (two 9 9), .push 0 (two 10 10),
       .pop 0, .pop 0, .pop 0, .pop 0, .pop 0]
    run 2 (fun _ => new) ops ≠ .ok (Spec.run (fun _ => []) ops) := by
  decide +kernel

/-- **C04 violated: cloning a full queue.**  After cloning a full queue of one-byte elements,
one pop and one push on the clone write outside its buffer. -/
theorem queue_clone_full_violated :
    run 1 (fun _ => new)
      [.push 0 (one 1), .push 0 (one 2), .push 0 (one 3), .push 0 (one 4),
       .push 0 (one 5), .push 0 (one 6), .push 0 (one 7), .push 0 (one 8),
       .clone 0 1, .pop 1, .push 1 (one 9)] = .ub := by
  decide +kernel

end Verif.Queue
