/-!
# Outcomes of code with loops, and arithmetic of cyclic probing

`Run` is the outcome type used for models of open-addressing tables: `hang` means that the
step budget ("fuel") was used up.
-/

namespace Verif

/-- Outcome of code run with a step budget: a value, undefined behaviour, or budget used up. -/
inductive Run (α : Type) where
  | ok (a : α)
  | ub
  | hang
  deriving DecidableEq, Repr

namespace Run

/-- sequencing -/
def bind {α β : Type} (x : Run α) (f : α → Run β) : Run β :=
  match x with
  | ok a => f a
  | ub => ub
  | hang => hang

instance : Monad Run where
  pure := Run.ok
  bind := Run.bind

@[simp] theorem ok_bind {α β : Type} (a : α) (f : α → Run β) :
    (Bind.bind (Run.ok a) f : Run β) = f a := rfl
@[simp] theorem ub_bind {α β : Type} (f : α → Run β) :
    (Bind.bind (Run.ub : Run α) f : Run β) = Run.ub := rfl
@[simp] theorem hang_bind {α β : Type} (f : α → Run β) :
    (Bind.bind (Run.hang : Run α) f : Run β) = Run.hang := rfl
@[simp] theorem pure_eq {α : Type} (a : α) : (Pure.pure a : Run α) = Run.ok a := rfl

theorem bind_ok {β γ : Type} {x : Run β} {k : β → Run γ} {r : γ} (h : (x >>= k) = .ok r) :
    ∃ b, x = .ok b ∧ k b = .ok r := by
  cases x with
  | ok b => exact ⟨b, rfl, h⟩
  | ub => simp at h
  | hang => simp at h

end Run

namespace Probe

theorem idx_lt {h k cap : Nat} (hc : 0 < cap) : (h + k) % cap < cap := Nat.mod_lt _ hc

theorem next_idx (h k cap : Nat) : ((h + k) % cap + 1) % cap = (h + (k + 1)) % cap := by
  rw [Nat.mod_add_mod, Nat.add_assoc]

/-- the probe comes back to its start exactly after `cap` steps -/
theorem back_iff {h k cap : Nat} (hh : h < cap) (hk : k < cap) :
    (h + (k + 1)) % cap = h ↔ k + 1 = cap := by
  by_cases hlt : h + (k + 1) < cap
  · rw [Nat.mod_eq_of_lt hlt]; omega
  · rw [Nat.mod_eq_sub_mod (by omega)]
    by_cases he : k + 1 = cap
    · have : h + (k + 1) - cap = h := by omega
      rw [this, Nat.mod_eq_of_lt hh]; simp [he]
    · rw [Nat.mod_eq_of_lt (by omega)]; omega

/-- every slot is reached from every start -/
theorem reach {h p cap : Nat} (hh : h < cap) (hp : p < cap) : ∃ d, d < cap ∧ (h + d) % cap = p := by
  by_cases hle : h ≤ p
  · exact ⟨p - h, by omega, by rw [Nat.add_sub_cancel' hle]; exact Nat.mod_eq_of_lt hp⟩
  · refine ⟨p + cap - h, by omega, ?_⟩
    have : h + (p + cap - h) = p + cap := by omega
    rw [this, Nat.add_mod_right]; exact Nat.mod_eq_of_lt hp

theorem idx_inj {h j k cap : Nat} (hh : h < cap) (hj : j < cap) (hk : k < cap)
    (he : (h + j) % cap = (h + k) % cap) : j = k := by
  have key : ∀ x, x < cap → (h + x) % cap = if h + x < cap then h + x else h + x - cap := by
    intro x hx
    split
    · exact Nat.mod_eq_of_lt ‹_›
    · rw [Nat.mod_eq_sub_mod (by omega)]; exact Nat.mod_eq_of_lt (by omega)
  rw [key j hj, key k hk] at he
  split at he <;> split at he <;> omega

end Probe
end Verif
