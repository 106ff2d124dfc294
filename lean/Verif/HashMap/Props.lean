import Verif.HashMap.Lemmas
import Batteries.Data.List.Perm

/-! Properties C07, C08, C09 (maps), C47: the hash map. -/

namespace Verif.HashMap
open Verif

variable {κ V : Type} [DecidableEq κ]

/-- **C07.**  For every hash function, every step budget and every history of calls on a fresh
map: either some call does not return within the budget, or the history returns exactly what
the same calls return on a dictionary.  In particular no call has undefined behaviour (no
access out of range, no use after free and no double free of a key copy). -/
theorem map_refines_dictionary (hash : κ → Nat) (f : Nat) (ops : List (Op κ V)) :
    run hash f new ops = .hang ∨
      ∃ t, run hash f new ops = .ok (t, (Spec.run [] ops).2) := by
  rcases run_refines f ops new [] (holds_new (hash := hash)) with h | ⟨t, h, _⟩
  · exact .inl h
  · exact .inr ⟨t, h⟩

/-- Returned values of a finished run (for the examples). -/
def rets {β γ : Type} : Run (β × γ) → Option γ
  | .ok (_, r) => some r
  | _ => none

/-- Final state of a finished run (for the examples). -/
def final {β γ : Type} : Run (β × γ) → Option β
  | .ok (t, _) => some t
  | _ => none

/-- Non-vacuity: all keys collide, with deletion, overwriting and growth; the history returns. -/
example : rets (run (fun _ : Nat => 3) 200 (new : Tab Nat Nat)
    [.put 1 10, .put 2 20, .put 3 30, .put 4 40, .put 5 50, .remove 2, .put 6 60, .put 7 70, .put 8 80,
     .put 3 33, .get 3, .get 2, .contains 8, .length]) =
    some (List.replicate 10 .unit ++ [.opt (some 33), .opt none, .bool true, .nat 7]) := by
  decide +kernel

/-! ### C08: termination -/

/-- number of `remove` calls of a history -/
def removes (ops : List (Op κ V)) : Nat :=
  ops.countP fun op => match op with | .remove _ => true | _ => false

/-- number of `put` calls of a history -/
def puts (ops : List (Op κ V)) : Nat :=
  ops.countP fun op => match op with | .put _ _ => true | _ => false

/-- Reading never loops forever: in every state reachable by any history, `get` and `contains`
return with any budget of at least the capacity. -/
theorem map_get_terminates (hash : κ → Nat) (f : Nat) (ops : List (Op κ V)) (t : Tab κ V)
    (rs : List (Ret V)) (h : run hash f new ops = .ok (t, rs)) (k : κ) (g : Nat) (hg : t.cap ≤ g) :
    get hash g t k = .ok ((Spec.run [] ops).1.lookup k) := by
  rcases run_refines f ops new [] (holds_new (hash := hash)) with h' | ⟨t', h', hh⟩
  · rw [h] at h'; simp at h'
  · rw [h] at h'
    injection h' with h'; injection h' with h1 h2; subst h1
    rcases get_holds hh k g with ⟨_, hc⟩ | hc
    · omega
    · exact hc

/-- bookkeeping for termination: capacity, load and number of tombstones -/
def Tame (t : Tab κ V) (l : List (κ × V)) (r B : Nat) : Prop :=
  (t.cap = 0 ∨ 8 ≤ t.cap) ∧ t.cap ≤ B ∧ t.slots.countP (·.occ) ≤ l.length + r ∧
  4 * l.length < 3 * t.cap + 4

theorem run_terminates (hash : κ → Nat) (ops : List (Op κ V)) : ∀ (t : Tab κ V) (l : List (κ × V))
    (r B f : Nat), Holds hash t l → Tame t l r B → r + removes ops ≤ 1 →
    8 ≤ B → B * 2 ^ ops.length * 2 + 10 ≤ f → ∃ t', run hash f t ops = .ok (t', (Spec.run l ops).2) := by
  induction ops with
  | nil => intro t l r B f _ _ _ _ _; exact ⟨t, rfl⟩
  | cons op ops ih =>
    intro t l r B f h ht hr hB hf
    obtain ⟨t1, t2, t3, t4⟩ := ht
    have hBf : 2 * B + 10 ≤ f := by
      have : 1 ≤ 2 ^ (op :: ops).length := Nat.one_le_two_pow
      have : B * 1 ≤ B * 2 ^ (op :: ops).length := Nat.mul_le_mul_left _ this
      omega
    have hf' : (2 * B) * 2 ^ ops.length * 2 + 10 ≤ f := by
      rw [List.length_cons, Nat.pow_succ] at hf
      have : 2 * B * 2 ^ ops.length = B * (2 ^ ops.length * 2) := by
        rw [Nat.mul_comm 2 B, Nat.mul_assoc, Nat.mul_comm 2]
      omega
    have hfB : B * 2 ^ ops.length * 2 + 10 ≤ f := by
      have : B * 2 ^ ops.length ≤ 2 * B * 2 ^ ops.length := Nat.mul_le_mul_right _ (by omega)
      omega
    -- every stored table has a never-used slot
    have hfree : 0 < t.cap → t.slots.countP (·.occ) < t.cap := by
      intro hc
      have : r ≤ 1 := by omega
      omega
    have finish : ∀ (t' : Tab κ V) (r' B' : Nat), step hash f t op = .ok (t', (Spec.step l op).2) →
        Holds hash t' (Spec.step l op).1 → Tame t' (Spec.step l op).1 r' B' →
        r' + removes ops ≤ 1 → 8 ≤ B' → B' * 2 ^ ops.length * 2 + 10 ≤ f →
        ∃ t', run hash f t (op :: ops) = .ok (t', (Spec.run l (op :: ops)).2) := by
      intro t' r' B' h1 h2 h3 h4 h5 h6
      obtain ⟨t'', e⟩ := ih t' _ r' B' f h2 h3 h4 h5 h6
      refine ⟨t'', ?_⟩
      unfold run
      rw [h1]
      simp only [Run.ok_bind, e, Run.pure_eq, Spec.run]
    cases op with
    | put k v =>
      have hr' : r + removes ops ≤ 1 := by simpa [removes] using hr
      rcases put_holds h k v f with ⟨_, g⟩ | ⟨t', g1, g2, g3, g4, g5, g6⟩
      · exfalso
        by_cases hc : 0 < t.cap
        · have := g (.inr (.inr (hfree hc))); omega
        · have := g (.inl (by omega)); omega
      · refine finish t' r (2 * B) (by simp only [step, g1, Run.ok_bind, Run.pure_eq, Spec.step]) g2 ?_
          hr' (by omega) hf'
        have hd : (dput l k v).length ≤ l.length + 1 := by
          unfold dput; split <;> simp
        have hlc := h.len_le_cap
        have hlo := h.len_le_occ
        show Tame t' (dput l k v) r (2 * B)
        refine ⟨?_, ?_, ?_, ?_⟩
        · rw [g3]
          split
          · split <;> omega
          · exact t1
        · rw [g3]
          split
          · split <;> omega
          · omega
        · omega
        · rw [g3]
          split
          · split <;> omega
          · omega
    | get k =>
      have hr' : r + removes ops ≤ 1 := by simpa [removes] using hr
      rcases get_holds h k f with ⟨_, g⟩ | g
      · omega
      · exact finish t r B (by simp only [step, g, Run.ok_bind, Run.pure_eq, Spec.step]) h
          ⟨t1, t2, t3, t4⟩ hr' hB hfB
    | contains k =>
      have hr' : r + removes ops ≤ 1 := by simpa [removes] using hr
      rcases step_refines h (.contains k) f with g | ⟨t', g1, g2⟩
      · exfalso
        rcases get_holds h k f with ⟨_, g'⟩ | g'
        · omega
        · simp [step, g'] at g
      · have : t' = t := by
          rcases get_holds h k f with ⟨_, g'⟩ | g'
          · omega
          · simp [step, g'] at g1; exact g1.1.symm
        subst this
        exact finish t' r B g1 h ⟨t1, t2, t3, t4⟩ hr' hB hfB
    | remove k =>
      have hr' : r + 1 + removes ops ≤ 1 := by
        simp only [removes, List.countP_cons, if_true] at hr ⊢; omega
      rcases remove_holds h k f with ⟨_, g⟩ | ⟨t', g1, g2, g3, g4, g5, g6, g7⟩
      · exfalso
        by_cases hc : 0 < t.cap
        · obtain ⟨p, hp, hno⟩ := exists_free (t := t) (by rw [h.size]; exact hfree hc)
          have := g (.inr ⟨p, by rw [← h.size]; exact hp, hno⟩)
          omega
        · have h0 : t.cap = 0 := by omega
          rename_i hh
          simp [remove, h0] at hh
      · refine finish t' (r + 1) B (by simp only [step, g1, Run.ok_bind, Run.pure_eq, Spec.step]) g2 ?_
          hr' hB hfB
        have : (l.filter (fun e => e.1 ≠ k)).length ≤ l.length := List.length_filter_le _ _
        show Tame t' (l.filter (fun e => e.1 ≠ k)) (r + 1) B
        refine ⟨by rw [g3]; exact t1, by rw [g3]; exact t2, by omega, by rw [g3]; omega⟩
    | length =>
      have hr' : r + removes ops ≤ 1 := by simpa [removes] using hr
      exact finish t r B (by simp [step, Spec.step, h.len]) h ⟨t1, t2, t3, t4⟩ hr' hB hfB
    | isEmpty =>
      have hr' : r + removes ops ≤ 1 := by simpa [removes] using hr
      exact finish t r B (by simp only [step, Spec.step, h.len]; cases l <;> rfl) h
        ⟨t1, t2, t3, t4⟩ hr' hB hfB
    | free =>
      have hr' : r + removes ops ≤ 1 := by simpa [removes] using hr
      obtain ⟨t', g1, g2, g3, g4, g5, _⟩ := free_holds h
      refine finish t' r B (by simp only [step, g1, Run.ok_bind, Run.pure_eq, Spec.step]) g2 ?_
        hr' hB hfB
      exact ⟨.inl g3, by rw [g3]; omega, by rw [g4]; simp, by
        show 4 * 0 < _; omega⟩

/-- **C08 (partial).**  Every history with at most one `remove` runs to completion: all its
calls return.  Missing: histories with two or more removals (see
`map_remove_hangs_violated`, which needs only two). -/
theorem map_terminates_partial (hash : κ → Nat) (ops : List (Op κ V)) (h : removes ops ≤ 1) :
    ∃ N, ∀ f, N ≤ f → ∃ t, run hash f new ops = .ok (t, (Spec.run [] ops).2) :=
  ⟨8 * 2 ^ ops.length * 2 + 10, fun f hf => run_terminates hash ops new [] 0 8 f holds_new
    ⟨.inl rfl, by simp [new], by simp [new], by simp [new]⟩ (by omega) (by omega) hf⟩

/-- Non-vacuity: 20 insertions with growth and one removal. -/
example : removes ((List.range 20).map (fun i => Op.put i i) ++ [Op.remove 3, Op.get 3] :
    List (Op Nat Nat)) ≤ 1 := by decide

/-- In a reachable table whose slots are all marked occupied, removing an absent key never
returns, and neither does putting one while the load factor looks low. -/
theorem full_table_hangs (hash : κ → Nat) {t : Tab κ V} {l : List (κ × V)} (h : Holds hash t l)
    (hc : 0 < t.cap) (hfull : ∀ p, p < t.cap → Occ t p) (k : κ) (hk : k ∉ l.map Prod.fst) :
    (∀ f, remove hash f t k = .hang) ∧
    (4 * l.length < 3 * t.cap → ∀ f v, put hash f t k v = .hang) := by
  have key : ∀ f, putLoop t k f (hash k % t.cap) = .hang := by
    intro f
    rcases search_spec h k hc f with ⟨g, _⟩ | ⟨d, h1, h2, h3, h4, h5⟩
    · exact g
    · exact absurd (hfull _ (Nat.mod_lt _ hc)) (h4 hk)
  refine ⟨fun f => ?_, fun hlow f v => ?_⟩
  · unfold remove
    rw [if_neg (by omega), removeLoop_eq, key f]; rfl
  · cases f with
    | zero => rfl
    | succ f =>
      unfold put
      have : ¬ 4 * t.len ≥ 3 * t.cap := by rw [h.len]; omega
      simp only [this, if_false, Run.pure_eq, Run.ok_bind, key f, Run.hang_bind]

/-- A history after which every slot of an 8-slot table is marked occupied although the map
holds only 6 keys. -/
def fillHistory : List (Op Nat Nat) :=
  [.put 0 0, .put 1 1, .put 2 2, .put 3 3, .put 4 4, .put 5 5, .remove 0, .remove 1, .put 6 6, .put 7 7]

/-- Tables decide their own occupancy. -/
theorem occ_of_all {t : Tab κ V} (hs : t.slots.all (·.occ) = true) (p : Nat) (hp : p < t.slots.length) :
    Occ t p :=
  ⟨t.slots[p], List.getElem?_eq_getElem hp, List.all_eq_true.1 hs _ (List.getElem_mem hp)⟩

theorem run_append (hash : κ → Nat) (f : Nat) (a b : List (Op κ V)) (t t' : Tab κ V)
    (rs : List (Ret V)) (h : run hash f t a = .ok (t', rs)) :
    run hash f t (a ++ b) = (run hash f t' b >>= fun (t, rs') => pure (t, rs ++ rs')) := by
  induction a generalizing t rs with
  | nil =>
    simp only [run] at h; injection h with h; injection h with h1 h2
    subst h1; subst h2
    simp only [List.nil_append]
    cases run hash f t b <;> rfl
  | cons op a ih =>
    unfold run at h
    obtain ⟨⟨t1, r⟩, h1, h⟩ := Run.bind_ok h
    obtain ⟨⟨t2, rs2⟩, h2, h⟩ := Run.bind_ok h
    simp only [Run.pure_eq, Run.ok.injEq, Prod.mk.injEq] at h
    obtain ⟨rfl, rfl⟩ := h
    rw [List.cons_append]
    conv => lhs; unfold run
    rw [h1]
    simp only [Run.ok_bind, ih t1 rs2 h2]
    cases run hash f t2 b <;> rfl

theorem exists_of_final {β γ : Type} {x : Run (β × γ)} {p : β → Bool}
    (h : ((final x).map p) = some true) : ∃ t rs, x = .ok (t, rs) ∧ p t = true := by
  cases x with
  | ok a => obtain ⟨t, rs⟩ := a; simp [final] at h; exact ⟨t, rs, rfl, h⟩
  | ub => simp [final] at h
  | hang => simp [final] at h

theorem fill_full : ∃ t rs, run id 60 (new : Tab Nat Nat) fillHistory = .ok (t, rs) ∧ t.cap = 8 ∧
    t.slots.length = 8 ∧ t.slots.all (·.occ) = true := by
  have := exists_of_final (x := run id 60 (new : Tab Nat Nat) fillHistory)
    (p := fun t => decide (t.cap = 8 ∧ t.slots.length = 8 ∧ t.slots.all (·.occ) = true))
    (by decide +kernel)
  obtain ⟨t, rs, e, h⟩ := this
  exact ⟨t, rs, e, by simpa using h⟩

theorem fill_full' : ∃ t rs, run id 60 (new : Tab Nat Nat) (fillHistory ++ [.remove 2]) =
    .ok (t, rs) ∧ t.cap = 8 ∧ t.slots.length = 8 ∧ t.slots.all (·.occ) = true := by
  have := exists_of_final (x := run id 60 (new : Tab Nat Nat) (fillHistory ++ [.remove 2]))
    (p := fun t => decide (t.cap = 8 ∧ t.slots.length = 8 ∧ t.slots.all (·.occ) = true))
    (by decide +kernel)
  obtain ⟨t, rs, e, h⟩ := this
  exact ⟨t, rs, e, by simpa using h⟩

/-- **C08 violated.**  With the hash `k ↦ k`, after six insertions, two removals and two more
insertions, removing a key that is not in the map never returns, however long one waits. -/
theorem map_remove_hangs_violated :
    ∀ f, 60 ≤ f → run id f (new : Tab Nat Nat) (fillHistory ++ [.remove 99]) = .hang := by
  intro f hf
  have hrun : ∃ t rs, run id f (new : Tab Nat Nat) fillHistory = .ok (t, rs) ∧ t.cap = 8 ∧
      t.slots.length = 8 ∧ t.slots.all (·.occ) = true := by
    have h60 := fill_full
    obtain ⟨t, rs, e, h1, h2, h3⟩ := h60
    exact ⟨t, rs, run_mono e hf, h1, h2, h3⟩
  obtain ⟨t, rs, e, hc, hl, ha⟩ := hrun
  have hh := reach_holds e
  rw [run_append id f _ _ _ t rs e]
  have := (full_table_hangs id hh (by omega) (fun p hp => occ_of_all ha p (by omega)) 99
    (by decide)).1 f
  simp only [run, step, this, Run.hang_bind]

/-- **C08 violated.**  The same for `put`: three removals are enough to make the insertion of a
new key loop forever. -/
theorem map_put_hangs_violated :
    ∀ f, 60 ≤ f →
      run id f (new : Tab Nat Nat) (fillHistory ++ [.remove 2] ++ [.put 99 0]) = .hang := by
  intro f hf
  have hrun : ∃ t rs, run id f (new : Tab Nat Nat) (fillHistory ++ [.remove 2]) = .ok (t, rs) ∧
      t.cap = 8 ∧ t.slots.length = 8 ∧ t.slots.all (·.occ) = true := by
    have h60 := fill_full'
    obtain ⟨t, rs, e, h1, h2, h3⟩ := h60
    exact ⟨t, rs, run_mono e hf, h1, h2, h3⟩
  obtain ⟨t, rs, e, hc, hl, ha⟩ := hrun
  have hh := reach_holds e
  rw [run_append id f _ _ _ t rs e]
  have := (full_table_hangs id hh (by omega) (fun p hp => occ_of_all ha p (by omega)) 99
    (by decide)).2 (by rw [hc]; decide) f 0
  simp only [run, step, this, Run.hang_bind]

/-! ### C47: key memory -/

/-- **C47 (safety half).**  Whatever the history, every key block is released at most once and
only after it was allocated. -/
theorem map_keys_released_once (hash : κ → Nat) (f : Nat) (ops : List (Op κ V)) (t : Tab κ V)
    (rs : List (Ret V)) (h : run hash f new ops = .ok (t, rs)) :
    t.freed.Nodup ∧ ∀ i ∈ t.freed, i < t.next := by
  rcases run_refines f ops new [] (holds_new (hash := hash)) with h' | ⟨t', h', hh⟩
  · rw [h] at h'; simp at h'
  · rw [h] at h'
    injection h' with h'; injection h' with h1 h2; subst h1
    exact ⟨(List.nodup_append.1 hh.idnd).2.1, fun i hi => hh.idlt i (by simp [hi])⟩

theorem run_complete (hash : κ → Nat) (f : Nat) (ops : List (Op κ V)) :
    ∀ (t t' : Tab κ V) (l : List (κ × V)) (rs : List (Ret V)) (n : Nat), Holds hash t l →
      l.length + t.freed.length = t.next → l.length ≤ n → n + puts ops ≤ 6 →
      (t.cap = 0 ∨ t.cap = 8) →
      run hash f t ops = .ok (t', rs) →
      (Spec.run l ops).1.length + t'.freed.length = t'.next ∧ Holds hash t' (Spec.run l ops).1 := by
  induction ops with
  | nil =>
    intro t t' l rs n h hcpl _ _ _ he
    simp only [run] at he; injection he with he; injection he with h1 h2; subst h1
    exact ⟨hcpl, h⟩
  | cons op ops ih =>
    intro t t' l rs n h hcpl hn hp hcap he
    unfold run at he
    obtain ⟨⟨t1, r⟩, h1, he⟩ := Run.bind_ok he
    obtain ⟨⟨t2, rs2⟩, h2, he⟩ := Run.bind_ok he
    simp only [Run.pure_eq, Run.ok.injEq, Prod.mk.injEq] at he
    obtain ⟨rfl, rfl⟩ := he
    have fin : ∀ (n' : Nat), Holds hash t1 (Spec.step l op).1 →
        (Spec.step l op).1.length + t1.freed.length = t1.next → (Spec.step l op).1.length ≤ n' →
        n' + puts ops ≤ 6 → (t1.cap = 0 ∨ t1.cap = 8) →
        (Spec.run l (op :: ops)).1.length + t2.freed.length = t2.next ∧
          Holds hash t2 (Spec.run l (op :: ops)).1 := by
      intro n' g1 g2 g3 g4 g5
      have := ih t1 t2 _ rs2 n' g1 g2 g3 g4 g5 h2
      simpa only [Spec.run] using this
    cases op with
    | put k v =>
      have hp' : n + 1 + puts ops ≤ 6 := by
        simp only [puts, List.countP_cons, if_true] at hp ⊢; omega
      rcases put_holds h k v f with ⟨g, _⟩ | ⟨t', g1, g2, g3, g4, g5, g6⟩
      · simp only [step, g, Run.hang_bind] at h1; simp at h1
      · simp only [step, g1, Run.ok_bind, Run.pure_eq, Run.ok.injEq, Prod.mk.injEq] at h1
        obtain ⟨rfl, rfl⟩ := h1
        have hd : (dput l k v).length ≤ l.length + 1 := by
          unfold dput; split <;> simp
        have hlc := h.len_le_cap
        have hgrow : 4 * l.length ≥ 3 * t.cap → l.length = 0 ∧ t.cap = 0 := by
          intro hx; rcases hcap with hc | hc <;> omega
        refine fin (n + 1) g2 ?_ (by show (dput l k v).length ≤ n + 1; omega) hp' ?_
        · show (dput l k v).length + t'.freed.length = t'.next
          rw [g4]
          split at g5
          · rename_i hx; have := hgrow hx; omega
          · omega
        · rw [g3]
          split
          · rename_i hx; have := (hgrow hx).2; right; simp [this]
          · exact hcap
    | get k =>
      have hp' : n + puts ops ≤ 6 := by simpa [puts] using hp
      rcases get_holds h k f with ⟨g, _⟩ | g
      · simp [step, g] at h1
      · simp only [step, g, Run.ok_bind, Run.pure_eq, Run.ok.injEq, Prod.mk.injEq] at h1
        obtain ⟨rfl, rfl⟩ := h1
        exact fin n h hcpl hn hp' hcap
    | contains k =>
      have hp' : n + puts ops ≤ 6 := by simpa [puts] using hp
      rcases get_holds h k f with ⟨g, _⟩ | g
      · simp [step, g] at h1
      · simp only [step, g, Run.ok_bind, Run.pure_eq, Run.ok.injEq, Prod.mk.injEq] at h1
        obtain ⟨rfl, rfl⟩ := h1
        exact fin n h hcpl hn hp' hcap
    | remove k =>
      have hp' : n + puts ops ≤ 6 := by simpa [puts] using hp
      rcases remove_holds h k f with ⟨g, _⟩ | ⟨t', g1, g2, g3, g4, g5, g6, g7⟩
      · simp [step, g] at h1
      · simp only [step, g1, Run.ok_bind, Run.pure_eq, Run.ok.injEq, Prod.mk.injEq] at h1
        obtain ⟨rfl, rfl⟩ := h1
        have : (l.filter (fun e => e.1 ≠ k)).length ≤ l.length := List.length_filter_le _ _
        refine fin n g2 ?_ ?_ hp' (by rw [g3]; exact hcap)
        · show (l.filter (fun e => e.1 ≠ k)).length + _ = _
          omega
        · show (l.filter (fun e => e.1 ≠ k)).length ≤ n
          omega
    | length =>
      have hp' : n + puts ops ≤ 6 := by simpa [puts] using hp
      simp only [step, Run.ok.injEq, Prod.mk.injEq] at h1
      obtain ⟨rfl, rfl⟩ := h1
      exact fin n h hcpl hn hp' hcap
    | isEmpty =>
      have hp' : n + puts ops ≤ 6 := by simpa [puts] using hp
      simp only [step, Run.ok.injEq, Prod.mk.injEq] at h1
      obtain ⟨rfl, rfl⟩ := h1
      exact fin n h hcpl hn hp' hcap
    | free =>
      have hp' : n + puts ops ≤ 6 := by simpa [puts] using hp
      obtain ⟨t', g1, g2, g3, g4, g5, g6, g7⟩ := free_holds h
      simp only [step, g1, Run.ok_bind, Run.pure_eq, Run.ok.injEq, Prod.mk.injEq] at h1
      obtain ⟨rfl, rfl⟩ := h1
      exact fin n g2 (by simp [Spec.step]; omega) (by simp [Spec.step]) hp' (.inl g3)

/-- A duplicate-free list of `n` numbers below `n` is a permutation of `0..n-1`. -/
theorem perm_range {l : List Nat} (hn : l.Nodup) (hlt : ∀ i ∈ l, i < n) (hlen : l.length = n) :
    l.Perm (List.range n) := by
  have hsub : l.Subperm (List.range n) := List.subperm_of_subset hn (fun i hi => List.mem_range.2 (hlt i hi))
  exact hsub.perm_of_length_le (by simp [hlen])

/-- **C47 (partial).**  After any history with at most six `put` calls followed by `free`, every
key block ever allocated has been released exactly once.  Missing: maps that grow while they
hold keys (see `map_key_leak_violated`). -/
theorem map_keys_all_released_partial (hash : κ → Nat) (f : Nat) (ops : List (Op κ V))
    (hp : puts ops ≤ 6) (t : Tab κ V) (rs : List (Ret V))
    (h : run hash f new (ops ++ [.free]) = .ok (t, rs)) :
    t.freed.Perm (List.range t.next) := by
  have hp' : puts (ops ++ [.free]) ≤ 6 := by simpa [puts, List.countP_append] using hp
  obtain ⟨h1, h2⟩ := run_complete hash f (ops ++ [.free]) new t [] rs 0 holds_new rfl (by simp)
    (by omega) (.inl rfl) h
  have hnil : (Spec.run [] (ops ++ [.free]) : List (κ × V) × List (Ret V)).1 = [] := by
    clear h h1 h2 hp hp'
    have : ∀ d : List (κ × V), (Spec.run d (ops ++ [.free])).1 = [] := ?_
    · exact this []
    induction ops with
    | nil => intro d; rfl
    | cons op ops ih => intro d; simp only [List.cons_append, Spec.run]; exact ih _
  rw [hnil] at h1
  have hnd := List.nodup_append.1 h2.idnd
  exact perm_range hnd.2.1 (fun i hi => h2.idlt i (by simp [hi])) (by simpa using h1)

/-- Non-vacuity: six insertions, an overwrite-free removal, then `free`. -/
example : (final (run (fun k : Nat => k) 60 (new : Tab Nat Nat)
    ([.put 1 1, .put 2 2, .remove 1, .put 9 9] ++ [.free]))).map (fun t => (t.next, t.freed)) =
    some (3, [2, 1, 0]) := by decide +kernel

/-- **C47 violated.**  Seven insertions make the map grow; after `free`, 13 blocks were
allocated and only 7 released. -/
theorem map_key_leak_violated :
    ∃ (ops : List (Op Nat Nat)) (t : Tab Nat Nat) (rs : List (Ret Nat)),
      run id 60 new (ops ++ [.free]) = .ok (t, rs) ∧ t.next = 13 ∧ t.freed.length = 7 ∧
      ¬ t.freed.Perm (List.range t.next) := by
  obtain ⟨t, rs, e, h⟩ := exists_of_final
    (x := run id 60 (new : Tab Nat Nat) ((List.range 7).map (fun i => .put i i) ++ [.free]))
    (p := fun t => decide (t.next = 13 ∧ t.freed.length = 7)) (by decide +kernel)
  simp only [decide_eq_true_eq] at h
  refine ⟨_, t, rs, e, h.1, h.2, fun hc => ?_⟩
  have := hc.length_eq
  rw [h.1, h.2] at this
  simp at this

/-! ### C09: iterating a map -/

theorem scan_spec : ∀ (ss : List (Slot κ V)) (i : Nat), Good ss →
    (∃ n e, scan ss i = .ok (some e, i + n + 1) ∧ n < ss.length ∧
      lives ss = e :: lives (ss.drop (n + 1))) ∨
    (scan ss i = .ok (none, i + ss.length) ∧ lives ss = []) := by
  intro ss
  induction ss with
  | nil => intro i _; exact .inr ⟨rfl, rfl⟩
  | cons s ss ih =>
    intro i hg
    unfold scan
    by_cases hs : (s.occ && !s.del) = true
    · have hs' := hs
      simp only [Bool.and_eq_true, Bool.not_eq_true'] at hs'
      obtain ⟨hk, hv⟩ := hg s (by simp) hs'.1 hs'.2
      obtain ⟨⟨k, id⟩, hk⟩ := Option.isSome_iff_exists.1 hk
      obtain ⟨v, hv⟩ := Option.isSome_iff_exists.1 hv
      simp only [hs, if_true, hk, hv]
      refine .inl ⟨0, (k, v), rfl, by simp, ?_⟩
      unfold lives
      rw [List.filterMap_cons, entry_live hs'.1 hs'.2 hk hv]; rfl
    · have hs' : (s.occ && !s.del) = false := by simpa using hs
      simp only [hs', Bool.false_eq_true, if_false]
      have hl : lives (s :: ss) = lives ss := by
        unfold lives; rw [List.filterMap_cons]; simp [entry, hs']
      rw [hl]
      rcases ih (i + 1) (fun s hs => hg s (List.mem_cons_of_mem _ hs)) with
        ⟨n, e, h1, h2, h3⟩ | ⟨h1, h2⟩
      · refine .inl ⟨n + 1, e, by rw [h1, show i + 1 + n + 1 = i + (n + 1) + 1 by omega], by simpa using h2, ?_⟩
        rw [h3]; rfl
      · refine .inr ⟨by rw [h1, List.length_cons, show i + 1 + ss.length = i + (ss.length + 1) by omega], h2⟩

theorem iterNext_drop (t : Tab κ V) (hg : Good t.slots) (hne : t.slots.length ≠ 0) (i : Nat) :
    (∃ j e, iterNext t i = .ok (some e, j) ∧ i < j ∧ j ≤ t.slots.length ∧
      lives (t.slots.drop i) = e :: lives (t.slots.drop j)) ∨
    (∃ j, iterNext t i = .ok (none, j) ∧ lives (t.slots.drop i) = []) := by
  unfold iterNext
  have hg' : Good (t.slots.drop i) := fun s hs => hg s (List.mem_of_mem_drop hs)
  rcases scan_spec (t.slots.drop i) i hg' with ⟨n, e, h1, h2, h3⟩ | ⟨h1, h2⟩
  · rw [h1]
    simp only [Run.ok_bind]
    rw [List.length_drop] at h2
    rw [List.drop_drop] at h3
    exact .inl ⟨i + n + 1, e, rfl, by omega, by omega, by rw [h3, Nat.add_assoc]⟩
  · rw [h1]
    simp only [Run.ok_bind, hne, if_false]
    exact .inr ⟨_, rfl, h2⟩

theorem iterAll_drop (t : Tab κ V) (hg : Good t.slots) (hne : t.slots.length ≠ 0) :
    ∀ (f i : Nat), t.slots.length - i < f → iterAll t f i = .ok (lives (t.slots.drop i)) := by
  intro f
  induction f with
  | zero => intro i h; omega
  | succ f ih =>
    intro i h
    unfold iterAll
    rcases iterNext_drop t hg hne i with ⟨j, e, h1, h2, h3, h4⟩ | ⟨j, h1, h2⟩
    · rw [h1]
      simp only [Run.ok_bind]
      rw [ih j (by omega), h4]; rfl
    · rw [h1, h2]; rfl

/-- **C09 (maps, partial).**  Iterating a map after any history yields exactly its entries,
each once (in some order), and then the end; `cap + 1` calls of `next` suffice.  Missing: maps
without any slot, i.e. never used or freed (see `map_iter_empty_violated`). -/
theorem map_iter_visits_all_partial (hash : κ → Nat) (f : Nat) (ops : List (Op κ V)) (t : Tab κ V)
    (rs : List (Ret V)) (h : run hash f new ops = .ok (t, rs)) (hc : t.cap ≠ 0) :
    ∃ es, iterAll t (t.cap + 1) 0 = .ok es ∧ es.Perm (Spec.run [] ops).1 := by
  rcases run_refines f ops new [] (holds_new (hash := hash)) with h' | ⟨t', h', hh⟩
  · rw [h] at h'; simp at h'
  · rw [h] at h'
    injection h' with h'; injection h' with h1 h2; subst h1
    refine ⟨_, iterAll_drop t hh.good (by rw [hh.size]; exact hc) _ 0 (by rw [hh.size]; omega), ?_⟩
    simpa using hh.perm

/-- Non-vacuity. -/
example : (final (run (fun k : Nat => 7 * k) 60 (new : Tab Nat Nat)
    [.put 1 10, .put 2 20, .remove 1, .put 3 30])).map (fun t => (t.cap, iterAll t 9 0)) =
    some (8, .ok [(3, 30), (2, 20)]) := by decide +kernel

/-- **C09 violated.**  Iterating a map that was never used (or was freed) reads `vals[0]`
through a null pointer. -/
theorem map_iter_empty_violated (f : Nat) (t : Tab κ V) (h : t.slots = []) :
    iterAll t (f + 1) 0 = .ub := by
  unfold iterAll iterNext
  simp [h, scan]

example : iterAll (new : Tab Nat Nat) 1 0 = .ub := map_iter_empty_violated 0 new rfl

end Verif.HashMap
