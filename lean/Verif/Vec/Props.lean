import Verif.Vec.Lemmas

/-! Properties C01, C02, C03: the growable vector. -/

namespace Verif.Vec
open Verif

variable {α : Type}

/-- Generalisation of `vec_refines_sequences_partial` to any pair of related states. -/
theorem run_refines [DecidableEq α] (ops : List (Op α)) :
    ∀ (s : Nat → Vec α) (t : Nat → List α), HoldsAll s t → Spec.NoEmptyReverse t ops →
      run s ops = Spec.run t ops := by
  induction ops with
  | nil => intro s t _ _; rfl
  | cons op ops ih =>
    intro s t h hne
    have hstep := step_refines h op (by
      intro i hi; subst hi; exact hne.1)
    have hne2 := hne.2
    unfold run Spec.run
    cases hs : Spec.step t op with
    | none => rw [hs] at hstep; simp only at hstep; rw [hstep]; rfl
    | some p =>
      obtain ⟨t', r⟩ := p
      rw [hs] at hstep hne2
      obtain ⟨s', hs', hh⟩ := hstep
      rw [hs']
      simp only [Res.ok_bind]
      rw [ih s' t' hh hne2]
      cases Spec.run t' ops <;> rfl

/-- **C01 (partial).**  Every history of calls on any number of vectors returns what the
same calls return on finite sequences, and panics exactly when the sequence call is
undefined.  Missing: histories that call `reverse` on an empty vector (see
`vec_reverse_empty_violated`). -/
theorem vec_refines_sequences_partial [DecidableEq α] (ops : List (Op α))
    (h : Spec.NoEmptyReverse (fun _ => []) ops) :
    run (fun _ => new) ops = Spec.run (fun _ => []) ops :=
  run_refines ops _ _ (fun _ => holds_new) h

/-- Non-vacuity: a history with growth, insertion in the middle, removal, reversal, cloning
and comparison meets the hypothesis. -/
example : Spec.NoEmptyReverse (fun _ => ([] : List Nat))
    [.push 0 1, .push 0 2, .insert 0 1 7, .reverse 0, .clone 0 1, .remove 0 2, .append 0 1,
     .get 0 4, .eq 0 1] := by
  simp [Spec.NoEmptyReverse, Spec.step, upd]

example : run (fun _ => (new : Vec Nat))
    [.push 0 1, .push 0 2, .insert 0 1 7, .reverse 0, .clone 0 1, .remove 0 2, .append 0 1,
     .get 0 4, .get 0 5]
    = .panic := by
  rw [vec_refines_sequences_partial _ (by simp [Spec.NoEmptyReverse, Spec.step, upd])]
  decide

/-- **C02 (partial).**  No history of calls touches memory outside the vectors' buffers or
reads an element that was never written.  Missing: histories that reverse an empty vector. -/
theorem vec_memory_safe_partial [DecidableEq α] (ops : List (Op α))
    (h : Spec.NoEmptyReverse (fun _ => []) ops) :
    run (fun _ => new) ops ≠ .ub := by
  rw [vec_refines_sequences_partial ops h]
  clear h
  generalize (fun _ => ([] : List α)) = t
  induction ops generalizing t with
  | nil => simp [Spec.run]
  | cons op ops ih =>
    unfold Spec.run
    split
    · simp
    · rename_i s' r _
      have := ih s'
      split <;> simp_all

/-- **C01/C02 violated.**  Reversing an empty vector (fresh, or emptied by `clear`/`pop` with
any leftover buffer a 64-bit machine can have) accesses memory out of range. -/
theorem vec_reverse_empty_violated (v : Vec α) (h : Holds v []) (hc : v.cap < 2 ^ 64) :
    reverse v = .ub := by
  obtain ⟨rest, hb, hl, hcap⟩ := h
  have h0 : v.len = 0 := by simpa using hl
  unfold reverse
  simp only [h0, if_true]
  rw [reverseLoop, if_pos (by decide)]
  have : Mem.load v.buf (2 ^ 64 - 1) = .ub := by
    unfold Mem.load
    rw [List.getElem?_eq_none (by omega)]
  rw [this]
  rcases hx : Mem.load v.buf 0 with _ | _ | _
  · rfl
  · unfold Mem.load at hx; split at hx <;> simp at hx
  · rfl

/-- The full claim C02 is false of the code: a one-call history has undefined behaviour. -/
theorem vec_memory_safe_violated :
    ¬ ∀ ops : List (Op Nat), run (fun _ => new) ops ≠ .ub := by
  intro h
  apply h [.reverse 0]
  have := vec_reverse_empty_violated (new : Vec Nat) holds_new (by decide)
  simp only [run, step, this]; rfl

/-- The violation also hits a vector that had elements and was cleared. -/
example : ∃ v, push (new : Vec Nat) 5 = .ok v ∧ reverse (clear v) = .ub := by
  obtain ⟨v, hv, hh⟩ := push_holds (holds_new : Holds (new : Vec Nat) []) 5
  refine ⟨v, hv, vec_reverse_empty_violated _ (clear_holds hh) ?_⟩
  have : v = ⟨some 5 :: List.replicate 7 none, 1, 8⟩ := by
    have : push (new : Vec Nat) 5 = .ok ⟨some 5 :: List.replicate 7 none, 1, 8⟩ := by rfl
    rw [this] at hv; injection hv with hv; exact hv.symm
  subst this; decide

/-! ### C03: amortised growth -/

/-- Elements relocated by one push: `grow` reallocates the block holding `len` elements
(std/vec.zc:122-125, 87-91). -/
def pushCost (v : Vec α) : Nat := if v.len ≥ v.cap then v.len else 0

/-- Pushing a whole sequence, accumulating the number of relocated elements. -/
def pushAll (v : Vec α) : List α → Res (Vec α × Nat)
  | [] => pure (v, 0)
  | a :: as => do
      let w ← push v a
      let (u, c) ← pushAll w as
      pure (u, pushCost v + c)

theorem push_fields (v w : Vec α) (a : α) (h : push v a = .ok w) :
    w.len = v.len + 1 ∧
    w.cap = (if v.len ≥ v.cap then (if v.cap = 0 then 8 else v.cap * 2) else v.cap) := by
  unfold push at h
  by_cases hc : v.len ≥ v.cap
  · simp only [hc, if_true, Mem.store] at h
    split at h
    · simp only [Res.ok_bind, Res.pure_eq, Res.ok.injEq] at h
      subst h; simp [grow, hc]
    · simp at h
  · simp only [hc, if_false, Mem.store] at h
    split at h
    · simp only [Res.ok_bind, Res.pure_eq, Res.ok.injEq] at h
      subst h; simp [hc]
    · simp at h

theorem pushAll_cost (as : List α) : ∀ (v : Vec α) (l : List α), Holds v l → ∀ c0 : Nat,
    (v.cap = 0 → v.len = 0 ∧ c0 = 0) → (v.cap ≠ 0 → c0 + 8 ≤ v.cap ∧ (v.cap = 8 ∨ v.cap < 2 * v.len)) →
    ∃ u c, pushAll v as = .ok (u, c) ∧ Holds u (l ++ as) ∧ u.len ≤ u.cap ∧
      (u.cap = 0 → u.len = 0 ∧ c0 + c = 0) ∧
      (u.cap ≠ 0 → c0 + c + 8 ≤ u.cap ∧ (u.cap = 8 ∨ u.cap < 2 * u.len)) := by
  induction as with
  | nil =>
    intro v l h c0 h1 h2
    refine ⟨v, 0, rfl, by simpa using h, ?_, by simpa using h1, by simpa using h2⟩
    obtain ⟨rest, hb, hl, hc⟩ := h
    rw [hc, hb, hl]; simp
  | cons a as ih =>
    intro v l h c0 h1 h2
    obtain ⟨w, hw, hh⟩ := push_holds h a
    obtain ⟨f1, f2⟩ := push_fields v w a hw
    have hlc : v.len ≤ v.cap := by
      obtain ⟨rest, hb, hl, hc⟩ := h
      rw [hc, hb, hl]; simp
    have := ih w (l ++ [a]) hh (c0 + pushCost v) (by
        intro hw0
        rw [f2] at hw0
        exfalso
        by_cases hge : v.len ≥ v.cap
        · simp only [hge, if_true] at hw0
          by_cases hz : v.cap = 0
          · simp [hz] at hw0
          · simp only [hz, if_false] at hw0; omega
        · simp only [hge, if_false] at hw0; omega) (by
        intro _
        unfold pushCost
        rw [f1, f2]
        by_cases hge : v.len ≥ v.cap
        · simp only [hge, if_true]
          by_cases hz : v.cap = 0
          · have := h1 hz; simp [hz]; omega
          · have := h2 hz; simp only [hz, if_false]; omega
        · simp only [hge, if_false]
          have := h2 (by omega)
          omega)
    obtain ⟨u, c, e, hu, hle, g1, g2⟩ := this
    refine ⟨u, pushCost v + c, ?_, by simpa using hu, hle, ?_, ?_⟩
    · simp only [pushAll, hw, Res.ok_bind, e, Res.pure_eq]
    · intro h0; have := g1 h0; omega
    · intro h0; have := g2 h0; omega

/-- **C03.**  Pushing any non-empty sequence into a fresh vector succeeds, stores exactly that
sequence, relocates fewer than `2 * n` elements in total, and keeps
`length ≤ capacity < 2 * length + 8`. -/
theorem vec_push_amortised (as : List α) (hne : as ≠ []) :
    ∃ u c, pushAll new as = .ok (u, c) ∧ (∀ i a, as[i]? = some a → get u i = .ok a)
      ∧ u.len = as.length ∧ c < 2 * as.length ∧ u.len ≤ u.cap ∧ u.cap < 2 * u.len + 8 := by
  obtain ⟨u, c, e, hu, hle, g1, g2⟩ := pushAll_cost as new [] holds_new 0 (by simp [new]) (by simp [new])
  have hl := hu.choose_spec.2.1
  simp only [List.nil_append] at hl hu
  have hpos : 0 < as.length := List.length_pos_iff.2 hne
  have := g2 (by omega)
  refine ⟨u, c, e, ?_, hl, by omega, hle, by omega⟩
  intro i a hi
  rw [get_holds hu, hi]

/-- Non-vacuity: 20 pushes grow three times (8, 16, 32) and relocate 8 + 16 = 24 elements. -/
example : ∃ u, pushAll (new : Vec Nat) (List.range 20) = .ok (u, 24) ∧ u.cap = 32 :=
  ⟨(match pushAll (new : Vec Nat) (List.range 20) with | .ok (u, _) => u | _ => new), by decide +kernel, by decide +kernel⟩

end Verif.Vec
