/-!
# Common vocabulary

Outcomes of modelled code, and C-like memory cells.  Nothing here transcribes a
particular file of the repository; it is the small piece of C semantics every model
of a container uses.
-/

namespace Verif

/-- Outcome of a piece of modelled code: a value, a controlled panic (`exit(1)`), or
undefined behaviour of the C program (out-of-range or uninitialised access). -/
inductive Res (α : Type u) where
  | ok (a : α)
  | panic
  | ub
  deriving DecidableEq, Repr

namespace Res

/-- sequencing of modelled statements -/
def bind {α : Type u} {β : Type v} (x : Res α) (f : α → Res β) : Res β :=
  match x with
  | ok a => f a
  | panic => panic
  | ub => ub

instance : Monad Res where
  pure := Res.ok
  bind := Res.bind

@[simp] theorem ok_bind {α β : Type u} (a : α) (f : α → Res β) :
    (Bind.bind (Res.ok a) f : Res β) = f a := rfl
@[simp] theorem panic_bind {α β : Type u} (f : α → Res β) :
    (Bind.bind (Res.panic : Res α) f : Res β) = Res.panic := rfl
@[simp] theorem ub_bind {α β : Type u} (f : α → Res β) :
    (Bind.bind (Res.ub : Res α) f : Res β) = Res.ub := rfl
@[simp] theorem pure_eq {α : Type u} (a : α) : (Pure.pure a : Res α) = Res.ok a := rfl

end Res

/-- A block of C memory holding objects of one type: `none` is an indeterminate
(never written) cell. -/
abbrev Mem (α : Type u) := List (Option α)

namespace Mem

variable {α : Type u}

/-- Reading cell `i`; outside the block or indeterminate is undefined behaviour. -/
def load (m : Mem α) (i : Nat) : Res α :=
  match m[i]? with
  | some (some a) => .ok a
  | _ => .ub

/-- Writing cell `i`; outside the block is undefined behaviour. -/
def store (m : Mem α) (i : Nat) (a : α) : Res (Mem α) :=
  if i < m.length then .ok (m.set i (some a)) else .ub

/-- `malloc(n)` in units of cells. -/
def malloc (n : Nat) : Mem α := List.replicate n none

/-- `realloc` in units of cells: the common prefix is kept, new cells are indeterminate. -/
def realloc (m : Mem α) (n : Nat) : Mem α := m.take n ++ List.replicate (n - m.length) none

/-- `memcpy(dst + d, src + s, n)` in units of cells between different blocks; `n = 0`
is a no-op whatever the pointers are.  Indeterminate cells may be copied. -/
def memcpy (dst : Mem α) (d : Nat) (src : Mem α) (s n : Nat) : Res (Mem α) :=
  if n = 0 then .ok dst
  else if d + n ≤ dst.length ∧ s + n ≤ src.length then
    .ok (dst.take d ++ (src.drop s).take n ++ dst.drop (d + n))
  else .ub

/-- `memmove(m + d, m + s, n)` in units of cells inside one block. -/
def memmove (m : Mem α) (d s n : Nat) : Res (Mem α) := memcpy m d m s n

theorem load_ok_iff (m : Mem α) (i : Nat) (a : α) :
    load m i = .ok a ↔ m[i]? = some (some a) := by
  unfold load
  split
  · rename_i b h; rw [h]; simp
  · rename_i h; constructor
    · simp
    · intro h'; exact absurd h' (h a)

theorem length_realloc (m : Mem α) (n : Nat) (h : m.length ≤ n) : (realloc m n).length = n := by
  simp [realloc]; omega

theorem getElem?_realloc (m : Mem α) (n i : Nat) (h : m.length ≤ n) (hi : i < m.length) :
    (realloc m n)[i]? = m[i]? := by
  unfold realloc
  rw [List.take_of_length_le h, List.getElem?_append_left hi]

end Mem
/-- `for (i = lo; n iterations; i++) s = f(s, i)`. -/
def forUp {σ : Type u} (f : σ → Nat → Res σ) : Nat → Nat → σ → Res σ
  | _, 0, s => .ok s
  | i, n + 1, s => Res.bind (f s i) (forUp f (i + 1) n)

/-- Loop rule: an invariant kept by every iteration holds at the end, and the loop does not
fail. -/
theorem forUp_inv {σ : Type u} (f : σ → Nat → Res σ) (P : Nat → σ → Prop) (n i : Nat) (s : σ)
    (h0 : P i s)
    (hs : ∀ k s, i ≤ k → k < i + n → P k s → ∃ s', f s k = .ok s' ∧ P (k + 1) s') :
    ∃ s', forUp f i n s = .ok s' ∧ P (i + n) s' := by
  induction n generalizing i s with
  | zero => exact ⟨s, rfl, h0⟩
  | succ n ih =>
    obtain ⟨s1, h1, h2⟩ := hs i s (Nat.le_refl _) (by omega) h0
    obtain ⟨s2, h3, h4⟩ := ih (i + 1) s1 h2 fun k s a b => hs k s (by omega) (by omega)
    refine ⟨s2, ?_, by rwa [show i + (n + 1) = i + 1 + n by omega]⟩
    rw [forUp, h1]; exact h3

end Verif
