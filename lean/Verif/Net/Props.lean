import Verif.Net.Model

/-! # Sockets belong to their variables (C162) -/

namespace Verif.Net
open Spec

/-- The descriptors are what the variables hold. -/
structure Inv (st : St) (a : Abs) : Prop where
  len : st.vars.length = a.vars.length
  next : st.os.next = a.next
  neg : st.os.table (-1) = none
  zero : ∀ v, a.held v = none → st.handle v = 0
  held : ∀ v c, a.held v = some c → 0 < st.handle v ∧ st.os.table (st.handle v - 1) = some c
  fresh : ∀ i c, st.os.table i = some c → c < a.next
  inj : ∀ i j c, st.os.table i = some c → st.os.table j = some c → i = j
  own : ∀ v w c, a.held v = some c → a.held w = some c → v = w

theorem Inv.table {st : St} {a : Abs} (h : Inv st a) (v : Nat) : st.os.table (st.handle v - 1) = a.held v := by
  cases hh : a.held v with
  | none => rw [h.zero v hh]; exact h.neg
  | some c => exact (h.held v c hh).2

theorem handle_snoc (os os' : OS) (vs : List Int) (x : Int) (v : Nat) :
    St.handle ⟨os, vs ++ [x]⟩ v = if v = vs.length then x else St.handle ⟨os', vs⟩ v := by
  unfold St.handle
  simp only
  by_cases h : v < vs.length
  · rw [List.getElem?_append_left h, if_neg (by omega)]
  · by_cases h' : v = vs.length
    · subst h'; simp
    · rw [if_neg h', List.getElem?_append_right (by omega), List.getElem?_eq_none (l := vs) (by omega)]
      rw [List.getElem?_eq_none (by simp; omega)]

theorem held_snoc (n n' : Nat) (vs : List (Option Nat)) (x : Option Nat) (v : Nat) :
    Abs.held ⟨vs ++ [x], n⟩ v = if v = vs.length then x else Abs.held ⟨vs, n'⟩ v := by
  unfold Abs.held
  simp only
  by_cases h : v < vs.length
  · rw [List.getElem?_append_left h, if_neg (by omega)]
  · by_cases h' : v = vs.length
    · subst h'; simp
    · rw [if_neg h', List.getElem?_append_right (by omega), List.getElem?_eq_none (l := vs) (by omega)]
      rw [List.getElem?_eq_none (by simp; omega)]

theorem handle_set (os os' : OS) (vs : List Int) (v w : Nat) :
    St.handle ⟨os, vs.set v 0⟩ w = if w = v then 0 else St.handle ⟨os', vs⟩ w := by
  unfold St.handle
  simp only [List.getElem?_set]
  by_cases h : v = w
  · subst h
    simp only [if_true]
    split <;> rfl
  · rw [if_neg h, if_neg (Ne.symm h)]

theorem held_set (n n' : Nat) (vs : List (Option Nat)) (v w : Nat) :
    Abs.held ⟨vs.set v none, n⟩ w = if w = v then none else Abs.held ⟨vs, n'⟩ w := by
  unfold Abs.held
  simp only [List.getElem?_set]
  by_cases h : v = w
  · subst h
    simp only [if_true]
    split <;> rfl
  · rw [if_neg h, if_neg (Ne.symm h)]

theorem held_lt {a : Abs} {v : Nat} {c : Nat} (h : a.held v = some c) : v < a.vars.length := by
  apply Classical.byContradiction
  intro hn
  unfold Abs.held at h
  rw [List.getElem?_eq_none (by omega)] at h
  cases h

/-- A new variable without a socket. -/
theorem Inv.none {st : St} {a : Abs} (h : Inv st a) : Inv ⟨st.os, st.vars ++ [0]⟩ ⟨a.vars ++ [Option.none], a.next⟩ := by
  refine ⟨by simp [h.len], h.next, h.neg, ?_, ?_, h.fresh, h.inj, ?_⟩
  · intro v hv
    rw [held_snoc _ a.next] at hv
    rw [handle_snoc _ st.os]
    split
    · rfl
    · rename_i hne
      rw [h.len] at hne
      rw [if_neg hne] at hv
      exact h.zero v hv
  · intro v c hv
    rw [held_snoc _ a.next] at hv
    rw [handle_snoc _ st.os]
    split at hv
    · cases hv
    · rename_i hne
      rw [← h.len] at hne
      rw [if_neg hne]
      exact h.held v c hv
  · intro v w c hv hw
    rw [held_snoc _ a.next] at hv hw
    split at hv
    · cases hv
    · split at hw
      · cases hw
      · exact h.own v w c hv hw

/-- A new variable with a new socket. -/
theorem Inv.some {st : St} {a : Abs} (h : Inv st a) {fd : Nat} (hfd : st.os.table fd = Option.none) :
    Inv ⟨(st.os.make fd).1, st.vars ++ [(fd : Int) + 1]⟩ ⟨a.vars ++ [Option.some a.next], a.next + 1⟩ := by
  have hold : ∀ v, a.held v = Option.some a.next → False := by
    intro v hv
    exact absurd (h.fresh _ _ (h.held v _ hv).2) (by omega)
  have ht : ∀ i c, i ≠ (fd : Int) → st.os.table i = Option.some c → (st.os.make fd).1.table i = Option.some c := by
    intro i c hi hc
    simp only [OS.make]
    rw [if_neg hi]; exact hc
  have hne : ∀ v c, a.held v = Option.some c → st.handle v - 1 ≠ (fd : Int) := by
    intro v c hv he
    have := (h.held v c hv).2
    rw [he, hfd] at this; cases this
  refine ⟨by simp [h.len], by simp [OS.make, h.next], ?_, ?_, ?_, ?_, ?_, ?_⟩
  · simp only [OS.make]
    rw [if_neg (by omega)]; exact h.neg
  · intro v hv
    rw [held_snoc _ a.next] at hv
    rw [handle_snoc _ st.os]
    split at hv
    · cases hv
    · rename_i hn
      rw [← h.len] at hn
      rw [if_neg hn]
      exact h.zero v hv
  · intro v c hv
    rw [held_snoc _ a.next] at hv
    rw [handle_snoc _ st.os]
    split at hv
    · rename_i hn
      rw [← h.len] at hn
      rw [if_pos hn]
      cases hv
      refine ⟨by omega, ?_⟩
      simp only [OS.make]
      rw [if_pos (by omega), h.next]
    · rename_i hn
      rw [← h.len] at hn
      rw [if_neg hn]
      exact ⟨(h.held v c hv).1, ht _ _ (hne v c hv) (h.held v c hv).2⟩
  · intro i c hc
    simp only [OS.make] at hc
    split at hc
    · cases hc; rw [h.next]; exact Nat.lt_succ_self _
    · exact Nat.lt_succ_of_lt (h.fresh i c hc)
  · intro i j c hi hj
    simp only [OS.make] at hi hj
    split at hi <;> split at hj
    · omega
    · cases hi; have := h.fresh j _ hj; rw [h.next] at this; omega
    · cases hj; have := h.fresh i _ hi; rw [h.next] at this; omega
    · exact h.inj i j c hi hj
  · intro v w c hv hw
    rw [held_snoc _ a.next] at hv hw
    split at hv <;> split at hw
    · omega
    · cases hv; exact (hold w hw).elim
    · cases hw; exact (hold v hv).elim
    · exact h.own v w c hv hw

theorem Inv.close {st : St} {a : Abs} (h : Inv st a) (v : Nat) : Inv (st.closeVar v).1 (a.give v).1 ∧ (st.closeVar v).2 = (a.give v).2 := by
  unfold St.closeVar Abs.give
  cases hv : a.held v with
  | none =>
    rw [if_neg (by rw [h.zero v hv]; omega)]
    exact ⟨h, rfl⟩
  | some c =>
    obtain ⟨h1, h2⟩ := h.held v c hv
    rw [if_pos h1]
    simp only [OS.close]
    refine ⟨⟨by simp [h.len], h.next, ?_, ?_, ?_, ?_, ?_, ?_⟩, by rw [h2]⟩
    · simp only; split
      · rfl
      · exact h.neg
    · intro w hw
      rw [held_set _ a.next] at hw
      rw [handle_set _ st.os]
      split
      · rfl
      · rename_i hn
        rw [if_neg hn] at hw
        exact h.zero w hw
    · intro w d hw
      rw [held_set _ a.next] at hw
      rw [handle_set _ st.os]
      split at hw
      · cases hw
      · rename_i hn
        rw [if_neg hn]
        obtain ⟨h3, h4⟩ := h.held w d hw
        refine ⟨h3, ?_⟩
        show (if st.handle w - 1 = st.handle v - 1 then Option.none else st.os.table (st.handle w - 1)) = _
        rw [if_neg]
        · exact h4
        · intro he
          rw [he, h2] at h4
          cases h4
          exact hn (h.own w v _ hw hv)
    · intro i d hd
      simp only at hd
      split at hd
      · cases hd
      · exact h.fresh i d hd
    · intro i j d hi hj
      simp only at hi hj
      split at hi
      · cases hi
      · split at hj
        · cases hj
        · exact h.inj i j d hi hj
    · intro w u d hw hu
      rw [held_set _ a.next] at hw hu
      split at hw
      · cases hw
      · split at hu
        · cases hu
        · exact h.own w u d hw hu

theorem Inv.move {st : St} {a : Abs} (h : Inv st a) (v : Nat) :
    Inv ⟨st.os, st.vars.set v 0 ++ [st.handle v]⟩ ⟨a.vars.set v Option.none ++ [a.held v], a.next⟩ := by
  have hh : ∀ w, St.handle ⟨st.os, st.vars.set v 0 ++ [st.handle v]⟩ w = if w = st.vars.length then st.handle v else if w = v then 0 else st.handle w := by
    intro w
    rw [handle_snoc _ st.os, List.length_set, handle_set _ st.os]
  have ha : ∀ w, Abs.held ⟨a.vars.set v Option.none ++ [a.held v], a.next⟩ w =
      if w = st.vars.length then a.held v else if w = v then Option.none else a.held w := by
    intro w
    rw [held_snoc _ a.next, List.length_set, held_set _ a.next, h.len]
  refine ⟨by simp [h.len], h.next, h.neg, ?_, ?_, h.fresh, h.inj, ?_⟩
  · intro w hw
    rw [ha] at hw
    rw [hh]
    split at hw
    · rename_i hn; rw [if_pos hn]; exact h.zero v hw
    · rename_i hn
      rw [if_neg hn]
      split at hw
      · rename_i hn2; rw [if_pos hn2]
      · rename_i hn2; rw [if_neg hn2]; exact h.zero w hw
  · intro w c hw
    rw [ha] at hw
    rw [hh]
    split at hw
    · rename_i hn; rw [if_pos hn]; exact h.held v c hw
    · rename_i hn
      rw [if_neg hn]
      split at hw
      · cases hw
      · rename_i hn2; rw [if_neg hn2]; exact h.held w c hw
  · intro w u c hw hu
    rw [ha] at hw hu
    split at hw <;> split at hu
    · omega
    · split at hu
      · cases hu
      · rename_i hn; exact absurd (h.own u v c hu hw) hn
    · split at hw
      · cases hw
      · rename_i hn; exact absurd (h.own w v c hw hu) hn
    · split at hw
      · cases hw
      · split at hu
        · cases hu
        · exact h.own w u c hw hu

theorem Inv.step {st : St} {a : Abs} (h : Inv st a) (op : Op) (ops : List Op) (hh : Honest st (op :: ops)) :
    Inv (Net.step st op).1 (Spec.step a op).1 ∧ (Net.step st op).2 = (Spec.step a op).2 := by
  cases op with
  | «open» fd res =>
    cases fd with
    | none => exact ⟨h.none, rfl⟩
    | some fd =>
      obtain ⟨hfd, hres⟩ := hh.1
      simp only [Net.step, Spec.step]
      by_cases h0 : res = 0
      · subst h0
        rw [if_neg (by decide), if_pos rfl]
        exact ⟨h.some hfd, by simp [OS.make, h.next]⟩
      · rw [if_pos (by omega), if_neg h0]
        have hr : ((st.os.make fd).1.close fd).1 = ⟨st.os.table, st.os.next + 1⟩ := by
          simp only [OS.make, OS.close, OS.mk.injEq, and_true]
          funext i
          by_cases hi : i = fd
          · subst hi; rw [if_pos rfl, hfd]
          · rw [if_neg hi, if_neg hi]
        rw [hr]
        have hn := h.none
        refine ⟨⟨hn.len, by simp [h.next], hn.neg, hn.zero, hn.held, fun i c hc => Nat.lt_succ_of_lt (hn.fresh i c hc), hn.inj, hn.own⟩, ?_⟩
        simp [OS.make, OS.close, h.next]
  | accept l fd =>
    cases fd with
    | none => exact ⟨h.none, by simp [Net.step, Spec.step, h.table]⟩
    | some fd => exact ⟨h.some hh.1, by simp [Net.step, Spec.step, h.table, OS.make, h.next]⟩
  | use v => exact ⟨h, by simp [Net.step, Spec.step, h.table]⟩
  | close v => exact h.close v
  | move v => exact ⟨h.move v, rfl⟩
  | drop v => exact h.close v

/-- C162: what happens at the system is what should happen to the sockets of the variables, for every sequence of operations and all
answers of the system: a variable reads, writes and closes its own socket only, nothing after it was closed or moved, and no socket of a failed
`connect` or `bind` stays open. -/
theorem run_refines {st : St} {a : Abs} (h : Inv st a) (ops : List Op) (hh : Honest st ops) :
    Inv (run st ops).1 (Spec.run a ops).1 ∧ (run st ops).2 = (Spec.run a ops).2 := by
  induction ops generalizing st a with
  | nil => exact ⟨h, rfl⟩
  | cons op ops ih =>
    obtain ⟨h1, h2⟩ := h.step op ops hh
    obtain ⟨h3, h4⟩ := ih h1 hh.2
    exact ⟨h3, by rw [run, Spec.run, h2, h4]⟩

/-- A process begins with the descriptors of others, which have numbers below `n`. -/
def start (table : Int → Option Nat) (n : Nat) : St := ⟨⟨table, n⟩, []⟩

theorem start_inv {table : Int → Option Nat} {n : Nat} (hneg : table (-1) = none) (hn : ∀ i c, table i = some c → c < n)
    (hi : ∀ i j c, table i = some c → table j = some c → i = j) : Inv (start table n) ⟨[], n⟩ :=
  ⟨rfl, rfl, hneg, by simp [start, St.handle], by simp [Abs.held], hn, hi, by simp [Abs.held]⟩

/-! ## what the specification says -/

/-- How often a socket was opened and closed. -/
def opens (c : Nat) (es : List Ev) : Nat := es.count (.opened c)
def closes (c : Nat) (es : List Ev) : Nat := es.count (.closed (some c))

/-- How many variables hold a socket. -/
def holders (c : Nat) (a : Abs) : Nat := a.vars.count (some c)

theorem count_set {c : Nat} : ∀ (vs : List (Option Nat)) (v : Nat), (vs.set v none).count (some c) + (if vs[v]?.getD none = some c then 1 else 0) = vs.count (some c)
  | [], v => by simp
  | x :: vs, 0 => by
    simp only [List.set_cons_zero, List.count_cons]
    simp
  | x :: vs, v + 1 => by
    have := count_set (c := c) vs v
    simp only [List.set_cons_succ, List.count_cons, List.getElem?_cons_succ]
    omega

theorem give_balance (a : Abs) (v : Nat) (c : Nat) :
    holders c (a.give v).1 + closes c (a.give v).2 = holders c a ∧ opens c (a.give v).2 = 0 ∧ (a.give v).1.next = a.next := by
  unfold Abs.give
  have := count_set (c := c) a.vars v
  cases hv : a.held v with
  | none => simp [holders, closes, opens]
  | some d =>
    have hv' : a.vars[v]?.getD none = some d := hv
    rw [hv'] at this
    refine ⟨?_, by simp [opens], rfl⟩
    simp only [holders, closes]
    rw [← this]
    by_cases hd : d = c
    · subst hd; simp
    · simp [hd]

theorem step_balance (a : Abs) (op : Op) (c : Nat) :
    holders c (Spec.step a op).1 + closes c (Spec.step a op).2 = holders c a + opens c (Spec.step a op).2 ∧
      ((a.next ≤ c ∧ c < (Spec.step a op).1.next ∧ opens c (Spec.step a op).2 = 1) ∨
        (¬ (a.next ≤ c ∧ c < (Spec.step a op).1.next) ∧ opens c (Spec.step a op).2 = 0)) ∧ a.next ≤ (Spec.step a op).1.next := by
  have hgive := give_balance a
  cases op with
  | «open» fd res =>
    cases fd with
    | none =>
      simp only [Spec.step, holders, closes, opens, List.count_append, List.count_singleton]
      simp
    | some fd =>
      simp only [Spec.step]
      split
      · simp only [holders, closes, opens, List.count_append, List.count_singleton]
        by_cases hc : a.next = c
        · subst hc; simp
        · simp [hc]; omega
      · simp only [holders, closes, opens, List.count_append, List.count_cons, List.count_nil]
        by_cases hc : a.next = c
        · subst hc; simp
        · simp [hc]; omega
  | accept l fd =>
    cases fd with
    | none =>
      simp only [Spec.step, holders, closes, opens, List.count_append, List.count_singleton]
      simp
    | some fd =>
      simp only [Spec.step, holders, closes, opens, List.count_append, List.count_cons, List.count_nil]
      by_cases hc : a.next = c
      · subst hc; simp
      · simp [hc]; omega
  | use v =>
    simp only [Spec.step, holders, closes, opens, List.count_singleton]
    simp
  | close v =>
    obtain ⟨h1, h2, h3⟩ := hgive v c
    simp only [Spec.step]
    omega
  | move v =>
    have := count_set (c := c) a.vars v
    simp only [Spec.step, holders, closes, opens, List.count_append, List.count_singleton, List.count_nil]
    refine ⟨?_, Or.inr ⟨by omega, trivial⟩, Nat.le_refl _⟩
    rw [← this]
    show _ = _ + (if a.held v = some c then 1 else 0) + 0
    simp
  | drop v =>
    obtain ⟨h1, h2, h3⟩ := hgive v c
    simp only [Spec.step]
    omega

theorem run_balance (ops : List Op) (a : Abs) (c : Nat) :
    holders c (Spec.run a ops).1 + closes c (Spec.run a ops).2 = holders c a + opens c (Spec.run a ops).2 ∧
      ((a.next ≤ c ∧ c < (Spec.run a ops).1.next ∧ opens c (Spec.run a ops).2 = 1) ∨
        (¬ (a.next ≤ c ∧ c < (Spec.run a ops).1.next) ∧ opens c (Spec.run a ops).2 = 0)) ∧ a.next ≤ (Spec.run a ops).1.next := by
  induction ops generalizing a with
  | nil => simp only [Spec.run]; exact ⟨by simp [closes, opens], Or.inr ⟨by omega, rfl⟩, Nat.le_refl _⟩
  | cons op ops ih =>
    obtain ⟨h1, h2, h3⟩ := step_balance a op c
    obtain ⟨h4, h5, h6⟩ := ih (Spec.step a op).1
    simp only [Spec.run]
    have ho : opens c ((Spec.step a op).2 ++ (Spec.run (Spec.step a op).1 ops).2) = opens c (Spec.step a op).2 + opens c (Spec.run (Spec.step a op).1 ops).2 := by
      simp [opens]
    have hc : closes c ((Spec.step a op).2 ++ (Spec.run (Spec.step a op).1 ops).2) = closes c (Spec.step a op).2 + closes c (Spec.run (Spec.step a op).1 ops).2 := by
      simp [closes]
    rw [ho, hc]
    omega

/-- C162: when all variables are gone, every socket that was opened has been closed, once; and the sockets of others were never closed. -/
theorem all_closed {table : Int → Option Nat} {n : Nat} (hneg : table (-1) = none) (hn : ∀ i c, table i = some c → c < n)
    (hi : ∀ i j c, table i = some c → table j = some c → i = j) (ops : List Op) (hh : Honest (start table n) ops)
    (hend : ∀ v, (run (start table n) ops).1.handle v = 0) (c : Nat) :
    closes c (run (start table n) ops).2 = opens c (run (start table n) ops).2 ∧ opens c (run (start table n) ops).2 ≤ 1 ∧
      (c < n → closes c (run (start table n) ops).2 = 0) := by
  obtain ⟨h1, h2⟩ := run_refines (start_inv hneg hn hi) ops hh
  obtain ⟨h3, h4, _⟩ := run_balance ops ⟨[], n⟩ c
  have h0 : holders c ⟨[], n⟩ = 0 := rfl
  have hz : holders c (Spec.run ⟨[], n⟩ ops).1 = 0 := by
    apply List.count_eq_zero.mpr
    intro hm
    obtain ⟨v, hv, he⟩ := List.getElem_of_mem hm
    have : (Spec.run ⟨[], n⟩ ops).1.held v = some c := by
      unfold Abs.held
      rw [List.getElem?_eq_getElem hv, he]; rfl
    have := (h1.held v c this).1
    rw [hend v] at this
    omega
  rw [h2]
  simp only at h4
  refine ⟨by omega, by omega, fun hc => by omega⟩

/-- C162: the descriptors of others stay open, and stand for what they stood for. -/
theorem others_kept {table : Int → Option Nat} {n : Nat} (hneg : table (-1) = none) (hn : ∀ i c, table i = some c → c < n)
    (hi : ∀ i j c, table i = some c → table j = some c → i = j) (ops : List Op) (hh : Honest (start table n) ops) {i : Int} {c : Nat} (hc : table i = some c) :
    (run (start table n) ops).1.os.table i = some c := by
  have : ∀ (ops : List Op) (st : St) (a : Abs), Inv st a → Honest st ops → (∀ v, a.held v ≠ some c) → n ≤ a.next → st.os.table i = some c →
      (run st ops).1.os.table i = some c := by
    intro ops
    induction ops with
    | nil => intro st a _ _ _ _ h; exact h
    | cons op ops ih =>
      intro st a h hh hv hna ht
      have hcn := hn i c hc
      obtain ⟨h1, h2⟩ := h.step op ops hh
      obtain ⟨hb, _, hb3⟩ := step_balance a op c
      have hold : holders c a = 0 := by
        apply List.count_eq_zero.mpr
        intro hm
        obtain ⟨v, hlt, he⟩ := List.getElem_of_mem hm
        exact hv v (by unfold Abs.held; rw [List.getElem?_eq_getElem hlt, he]; rfl)
      obtain ⟨hb1, hb2, _⟩ := step_balance a op c
      have hop : opens c (Spec.step a op).2 = 0 := by omega
      have hnew : holders c (Spec.step a op).1 = 0 := by omega
      have hcl : closes c (Spec.step a op).2 = 0 := by omega
      refine ih _ _ h1 hh.2 ?_ (Nat.le_trans hna hb3) ?_
      · intro v hv'
        have hlt := held_lt hv'
        have : some c ∈ (Spec.step a op).1.vars := by
          unfold Abs.held at hv'
          rw [List.getElem?_eq_getElem hlt] at hv'
          exact hv' ▸ List.getElem_mem hlt
        exact absurd this (List.count_eq_zero.mp hnew)
      · have hclose : ∀ v, closes c (a.give v).2 = 0 → (st.closeVar v).1.os.table i = some c := by
          intro v hz
          unfold St.closeVar
          split
          · rename_i hp
            simp only [OS.close]
            rw [if_neg]
            · exact ht
            · intro he
              have := h.table v
              rw [← he, ht] at this
              exact hv v this.symm
          · exact ht
        cases op with
        | «open» fd res =>
          cases fd with
          | none => exact ht
          | some fd =>
            have hfd := hh.1.1
            have hne : i ≠ (fd : Int) := by rintro rfl; rw [hfd] at ht; cases ht
            simp only [Net.step]
            split
            · simp only [OS.make, OS.close]; rw [if_neg hne, if_neg hne]; exact ht
            · simp only [OS.make]; rw [if_neg hne]; exact ht
        | accept l fd =>
          cases fd with
          | none => exact ht
          | some fd =>
            have hfd : st.os.table fd = none := hh.1
            have hne : i ≠ (fd : Int) := by rintro rfl; rw [hfd] at ht; cases ht
            simp only [Net.step, OS.make]
            rw [if_neg hne]; exact ht
        | use v => exact ht
        | close v => exact hclose v hcl
        | move v => exact ht
        | drop v => exact hclose v hcl
  exact this ops _ _ (start_inv hneg hn hi) hh (by simp [Abs.held]) (Nat.le_refl _) hc

/-- A listener accepts, the stream is moved and dropped twice, the listener closed and dropped; one `connect` fails. -/
def sample : List Op := [.open (some 3) 0, .accept 0 (some 4), .use 1, .move 1, .use 2, .use 1, .open (some 5) (-2), .close 0, .drop 2, .drop 1, .drop 0, .drop 3]

/-- Standard input, output and error. -/
def std (i : Int) : Option Nat := if 0 ≤ i ∧ i < 3 then some i.toNat else none

example : (run (start std 3) sample).2 = [.opened 3, .used (some 3), .opened 4, .used (some 4), .used (some 4), .used none, .opened 5, .closed (some 5),
    .closed (some 3), .closed (some 4)] ∧ Honest (start std 3) sample := by
  refine ⟨by decide +kernel, ?_⟩
  simp only [sample, Honest, and_true, true_and]
  decide +kernel

/-! ## ports -/

/-- C163 (partial): ports of TCP and UDP are asked for as they are.  Missing: other numbers, see `port_violated`. -/
theorem port_partial {p : Int} (h : 0 ≤ p ∧ p < 65536) : (port p : Int) = p := by
  unfold port
  omega

/-- C163 refuted: other numbers are not rejected, they stand for another port. -/
theorem port_violated {p : Int} (h : ¬ (0 ≤ p ∧ p < 65536)) : (port p : Int) ≠ p ∧ port p < 65536 ∧ port (65536 + 80) = 80 := by
  unfold port
  omega

/-! ## copies -/

/-- C162 refuted: with `expect` two variables hold one socket: when one of them is closed and the system uses its descriptor again, the other
reads and closes a socket of somebody else. -/
theorem copy_violated : ∃ (st : St), (∃ ops, Honest (start std 3) ops ∧ st = (run (start std 3) ops).1) ∧
    Honest (copy st 0) [.drop 0, .open (some 3) 0, .use 1, .drop 1, .use 2] ∧
    (run (copy st 0) [.drop 0, .open (some 3) 0, .use 1, .drop 1, .use 2]).2 = [.closed (some 3), .opened 4, .used (some 4), .closed (some 4), .used none] := by
  refine ⟨(run (start std 3) [.open (some 3) 0]).1, ⟨[.open (some 3) 0], ?_, rfl⟩, ?_, by decide +kernel⟩
  · simp only [Honest, and_true]; decide +kernel
  · simp only [Honest, and_true, true_and]; decide +kernel

end Verif.Net
