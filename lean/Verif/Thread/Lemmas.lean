import Verif.Thread.Model

/-! # Threads and mutexes: lemmas -/

namespace Verif.Thread
open Spec

/-- the phase of a thread -/
def State.ph (s : State) (t : Nat) : Option Phase := s.thr[t]?.map (·.phase)

theorem in_iff {s : State} {t : Nat} {p : Phase} : s.In t p ↔ s.ph t = some p := by
  unfold State.In State.ph
  cases s.thr[t]? <;> simp

theorem at_iff {s : State} {t : Nat} {b : Option Nat} {a : Act} {k : Int → Code} :
    s.At t b a k ↔ s.ph t = some (.run b (.act a k)) := in_iff

theorem ph_lt {s : State} {t : Nat} {p : Phase} (h : s.ph t = some p) : t < s.thr.length := by
  unfold State.ph at h
  cases h' : s.thr[t]? with
  | none => rw [h'] at h; simp at h
  | some x => exact (List.getElem?_eq_some_iff.1 h').1

theorem ph_none {s : State} {t : Nat} : s.ph t = none ↔ s.thr.length ≤ t := by
  unfold State.ph
  simp

/-- phases in a list of threads after one went on -/
theorem ph_modify (l : List Thr) (t : Nat) (p : Phase) (ht : t < l.length) (u : Nat) :
    ((l.modify t fun th => { th with phase := p })[u]?).map (·.phase)
      = if u = t then some p else l[u]?.map (·.phase) := by
  rw [List.getElem?_modify]
  by_cases h : u = t
  · subst h
    simp [List.getElem?_eq_getElem ht]
  · rw [if_neg h]
    have h' : ¬ t = u := fun e => h e.symm
    simp [h']

/-- marks of threads do not change phases -/
theorem ph_mark (l : List Thr) (t : Nat) (f : Thr → Thr) (hf : ∀ th, (f th).phase = th.phase) (u : Nat) :
    ((l.modify t f)[u]?).map (·.phase) = l[u]?.map (·.phase) := by
  rw [List.getElem?_modify]
  cases l[u]? with
  | none => rfl
  | some th =>
    simp only [Option.map_some, Option.map_eq_map]
    split <;> simp [hf]

theorem ph_go {s : State} {t : Nat} {p q : Phase} (h : s.ph t = some q) (u : Nat) :
    (s.go t p).ph u = if u = t then some p else s.ph u := ph_modify _ _ _ (ph_lt h) _

theorem ph_release (s : State) (v u : Nat) : (s.release v).ph u = s.ph u :=
  ph_mark s.thr v (fun th => { th with joinable := false }) (fun _ => rfl) u

theorem length_go (s : State) (t : Nat) (p : Phase) : (s.go t p).thr.length = s.thr.length := by
  simp [State.go]

/-- events that are not about the life of a thread -/
def Ev.quiet : Ev → Bool
  | .spawned .. | .began .. | .finished _ | .freed .. | .died _ => false
  | _ => true

/-- what a step does to threads and closures -/
inductive Move (fns : Nat → Nat → Code) (s s' : State) : Ev → Prop where
  | begin (t b f c) : s.ph t = some (.start b) → s.heap[b]? = some (.live f c) →
      (∀ u, s'.ph u = if u = t then some (.run (some b) (fns f c)) else s.ph u) → s'.heap = s.heap → s'.mem = s.mem →
      s'.mtx = s.mtx → Move fns s s' (.began t f c)
  | finish (t b) : s.ph t = some (.run (some b) .done) → (∀ u, s'.ph u = if u = t then some (.fin b) else s.ph u) →
      s'.heap = s.heap → s'.mem = s.mem → s'.mtx = s.mtx → Move fns s s' (.finished t)
  | free (t b f c) : s.ph t = some (.fin b) → s.heap[b]? = some (.live f c) →
      (∀ u, s'.ph u = if u = t then some .ended else s.ph u) → s'.heap = s.heap.set b .freed → s'.mem = s.mem →
      s'.mtx = s.mtx → Move fns s s' (.freed t b)
  | die (t b a k) : s.ph t = some (.run (some b) (.act a k)) → a.point = true →
      (∃ th, s.thr[t]? = some th ∧ th.cancelled = true) →
      (∀ u, s'.ph u = if u = t then some .ended else s.ph u) → s'.heap = s.heap → s'.mem = s.mem →
      s'.mtx = s.mtx → Move fns s s' (.died t)
  | spawn (t b f c k) : s.ph t = some (.run b (.act (.spawn f c) k)) →
      (∀ u, s'.ph u = if u = t then some (.run b (k s.thr.length)) else if u = s.thr.length then
        some (.start s.heap.length) else s.ph u) → s'.heap = s.heap ++ [.live f c] → s'.mem = s.mem →
      s'.mtx = s.mtx → Move fns s s' (.spawned t s.thr.length f c)
  | other (e t b a k r) : e.quiet = true → s.ph t = some (.run b (.act a k)) →
      (∀ u, s'.ph u = if u = t then some (.run b (k r)) else s.ph u) →
      (s'.heap = s.heap ∨ s'.heap = s.heap ++ [.freed]) → Move fns s s' e

theorem step_move {fns : Nat → Nat → Code} {s s' : State} {e : Ev} (h : Step fns s e s') : Move fns s s' e := by
  cases h with
  | begin h1 h2 => exact .begin _ _ _ _ (in_iff.1 h1) h2 (ph_go (in_iff.1 h1)) rfl rfl rfl
  | finish h1 => exact .finish _ _ (in_iff.1 h1) (ph_go (in_iff.1 h1)) rfl rfl rfl
  | free h1 h2 => exact .free _ _ _ _ (in_iff.1 h1) h2 (ph_go (in_iff.1 h1)) rfl rfl rfl
  | spawnOom h1 => exact .other _ _ _ _ _ _ rfl (at_iff.1 h1) (ph_go (at_iff.1 h1)) (.inl rfl)
  | spawnFail h1 => exact .other _ _ _ _ _ _ rfl (at_iff.1 h1) (ph_go (at_iff.1 h1)) (.inr rfl)
  | @spawn t b f c k h1 =>
    have h1' := at_iff.1 h1
    refine .spawn t b f c k h1' (fun u => ?_) rfl rfl rfl
    have hlt := ph_lt h1'
    show (((s.go t _).thr ++ [_])[u]?).map (·.phase) = _
    rw [List.getElem?_append, length_go]
    by_cases hu : u < s.thr.length
    · rw [if_pos hu]
      have : u ≠ s.thr.length := by omega
      rw [if_neg this]
      exact ph_go h1' u
    · rw [if_neg hu]
      have hut : u ≠ t := by omega
      rw [if_neg hut]
      by_cases he : u = s.thr.length
      · subst he; simp
      · rw [if_neg he]
        have : s.ph u = none := ph_none.2 (by omega)
        rw [this]
        have : ∃ n, u - s.thr.length = n + 1 := ⟨u - s.thr.length - 1, by omega⟩
        obtain ⟨n, hn⟩ := this
        rw [hn]; simp
  | join h1 h2 h3 h4 =>
    exact .other _ _ _ _ _ _ rfl (at_iff.1 h1) (fun u => by rw [ph_release, ph_go (at_iff.1 h1)]) (.inl rfl)
  | joinSelf h1 h2 h3 => exact .other _ _ _ _ _ _ rfl (at_iff.1 h1) (ph_go (at_iff.1 h1)) (.inl rfl)
  | detach h1 h2 h3 =>
    exact .other _ _ _ _ _ _ rfl (at_iff.1 h1) (fun u => by rw [ph_release, ph_go (at_iff.1 h1)]) (.inl rfl)
  | cancel h1 h2 h3 =>
    exact .other _ _ _ _ _ _ rfl (at_iff.1 h1)
      (fun u => by rw [← ph_go (at_iff.1 h1)]; exact ph_mark (s.go _ _).thr _ (fun th => { th with cancelled := true }) (fun _ => rfl) u) (.inl rfl)
  | @die t b a k th h1 h2 h3 h4 =>
    have h : s.ph t = some (.run (some b) (.act a k)) := by unfold State.ph; rw [h1, Option.map_some, h2]
    exact .die _ _ _ _ h h4 ⟨_, h1, h3⟩ (ph_go h) rfl rfl rfl
  | mnew h1 => exact .other _ _ _ _ _ _ rfl (at_iff.1 h1) (ph_go (at_iff.1 h1)) (.inl rfl)
  | lock h1 _ => exact .other _ _ _ _ _ _ rfl (at_iff.1 h1) (ph_go (at_iff.1 h1)) (.inl rfl)
  | unlock h1 _ => exact .other _ _ _ _ _ _ rfl (at_iff.1 h1) (ph_go (at_iff.1 h1)) (.inl rfl)
  | mfree h1 _ => exact .other _ _ _ _ _ _ rfl (at_iff.1 h1) (ph_go (at_iff.1 h1)) (.inl rfl)
  | load h1 => exact .other _ _ _ _ _ _ rfl (at_iff.1 h1) (ph_go (at_iff.1 h1)) (.inl rfl)
  | store h1 => exact .other _ _ _ _ _ _ rfl (at_iff.1 h1) (ph_go (at_iff.1 h1)) (.inl rfl)
  | sleep h1 => exact .other _ _ _ _ _ _ rfl (at_iff.1 h1) (ph_go (at_iff.1 h1)) (.inl rfl)

/-! ## Executions -/

theorem exec_prefix {fns : Nat → Nat → Code} {s0 : State} {tr : List Ev} {s : State} (h : Exec fns s0 tr s) :
    ∀ p e q, tr = p ++ e :: q → ∃ s1 s2, Exec fns s0 p s1 ∧ Step fns s1 e s2 := by
  induction h with
  | nil => intro p e q h; simp at h
  | @snoc tr s e' s' hx ha hs ih =>
    intro p e q h
    rcases List.eq_nil_or_concat q with rfl | ⟨q, x, rfl⟩
    · have := List.append_inj_left' h rfl
      have h2 := List.append_inj_right' h rfl
      subst this
      injection h2 with h2 _
      subst h2
      exact ⟨s, s', hx, hs⟩
    · have h' : tr ++ [e'] = (p ++ e :: q) ++ [x] := by rw [h]; simp
      exact ih p e q (List.append_inj_left' h' rfl)

/-- another element behind a list -/
theorem snoc_iff {α : Type} (l : List α) {x y : α} (h : x ≠ y) (i : Nat) :
    (l ++ [x])[i]? = some y ↔ l[i]? = some y := by
  rw [List.getElem?_append]
  split
  · exact Iff.rfl
  · rename_i hi
    rw [List.getElem?_eq_none (l := l) (by omega)]
    cases hn : i - l.length with
    | zero => simp [h]
    | succ n => simp

/-! ## The life of a thread -/

theorem count_snoc (q : Ev → Bool) (tr : List Ev) (e : Ev) :
    count q (tr ++ [e]) = count q tr + if q e then 1 else 0 := by
  unfold count
  rw [List.filter_append, List.length_append]
  cases h : q e <;> simp [h]

/-- the function of the thread begins -/
def isBegan (t : Nat) : Ev → Bool | .began u _ _ => u = t | _ => false
/-- it returns -/
def isFinished (t : Nat) : Ev → Bool | .finished u => u = t | _ => false
/-- its closure is freed -/
def isFreed (t : Nat) : Ev → Bool | .freed u _ => u = t | _ => false
/-- it is killed -/
def isDied (t : Nat) : Ev → Bool | .died u => u = t | _ => false
/-- it is spawned -/
def isSpawned (t : Nat) : Ev → Bool | .spawned _ u _ _ => u = t | _ => false

/-- the closure a thread owns -/
def Phase.blk : Phase → Option Nat
  | .start b | .fin b => some b
  | .run b _ => b
  | .ended => none

/-- spawned, began, finished, freed, died: how often, by phase -/
def Life (tr : List Ev) (t : Nat) (n0 n1 n2 n3 n4 : Nat) : Prop :=
  count (isSpawned t) tr = n0 ∧ count (isBegan t) tr = n1 ∧ count (isFinished t) tr = n2 ∧
    count (isFreed t) tr = n3 ∧ count (isDied t) tr = n4

/-- what a phase says about the past -/
def Past (tr : List Ev) (t : Nat) : Option Phase → Prop
  | none => Life tr t 0 0 0 0 0
  | some (.start _) => Life tr t 1 0 0 0 0
  | some (.run none _) => Life tr t 0 0 0 0 0
  | some (.run (some _) _) => Life tr t 1 1 0 0 0
  | some (.fin _) => Life tr t 1 1 1 0 0
  | some .ended => Life tr t 1 1 1 1 0 ∨ Life tr t 1 1 0 0 1

/-- the invariant of threads and closures -/
structure Inv (tr : List Ev) (s : State) : Prop where
  past : ∀ t, Past tr t (s.ph t)
  own : ∀ t p b, s.ph t = some p → p.blk = some b → ∃ f c u, s.heap[b]? = some (.live f c) ∧ .spawned u t f c ∈ tr
  inj : ∀ t p t' p' b, s.ph t = some p → s.ph t' = some p' → p.blk = some b → p'.blk = some b → t = t'
  used : ∀ b f c, s.heap[b]? = some (.live f c) → (∃ t p, s.ph t = some p ∧ p.blk = some b) ∨ ∃ t, .died t ∈ tr

theorem life_quiet {tr : List Ev} {t : Nat} {e : Ev} {a b c d f : Nat} (he : e.quiet = true)
    (h : Life tr t a b c d f) : Life (tr ++ [e]) t a b c d f := by
  obtain ⟨h1, h2, h3, h4, h5⟩ := h
  refine ⟨?_, ?_, ?_, ?_, ?_⟩ <;> rw [count_snoc] <;> cases e <;> simp_all [Ev.quiet, isSpawned, isBegan, isFinished, isFreed, isDied]

theorem past_quiet {tr : List Ev} {t : Nat} {e : Ev} (he : e.quiet = true) :
    ∀ p, Past tr t p → Past (tr ++ [e]) t p
  | none => life_quiet he
  | some (.start _) => life_quiet he
  | some (.run none _) => life_quiet he
  | some (.run (some _) _) => life_quiet he
  | some (.fin _) => life_quiet he
  | some .ended => fun h => h.imp (life_quiet he) (life_quiet he)

/-- events about another thread -/
theorem life_other {tr : List Ev} {t : Nat} {e : Ev} {a b c d f : Nat}
    (h0 : isSpawned t e = false) (h1 : isBegan t e = false) (h2 : isFinished t e = false) (h3 : isFreed t e = false)
    (h4 : isDied t e = false) (h : Life tr t a b c d f) : Life (tr ++ [e]) t a b c d f := by
  obtain ⟨g1, g2, g3, g4, g5⟩ := h
  refine ⟨?_, ?_, ?_, ?_, ?_⟩ <;> rw [count_snoc] <;> simp [*]

theorem past_other {tr : List Ev} {t : Nat} {e : Ev}
    (h0 : isSpawned t e = false) (h1 : isBegan t e = false) (h2 : isFinished t e = false) (h3 : isFreed t e = false)
    (h4 : isDied t e = false) : ∀ p, Past tr t p → Past (tr ++ [e]) t p
  | none => life_other h0 h1 h2 h3 h4
  | some (.start _) => life_other h0 h1 h2 h3 h4
  | some (.run none _) => life_other h0 h1 h2 h3 h4
  | some (.run (some _) _) => life_other h0 h1 h2 h3 h4
  | some (.fin _) => life_other h0 h1 h2 h3 h4
  | some .ended => fun h => h.imp (life_other h0 h1 h2 h3 h4) (life_other h0 h1 h2 h3 h4)

theorem past_run {tr : List Ev} {t : Nat} {b : Option Nat} {c c' : Code} (h : Past tr t (some (.run b c))) :
    Past tr t (some (.run b c')) := by
  cases b <;> exact h

theorem inv_move {fns : Nat → Nat → Code} {tr : List Ev} {s s' : State} {e : Ev} (hi : Inv tr s)
    (hm : Move fns s s' e) : Inv (tr ++ [e]) s' := by
  have mono : ∀ {x : Ev}, x ∈ tr → x ∈ tr ++ [e] := fun h => List.mem_append.2 (.inl h)
  cases hm with
  | begin t b f c h1 h2 h3 h4 =>
    refine ⟨?_, ?_, ?_, ?_⟩
    · intro u
      rw [h3]
      split
      · rename_i hu; subst hu
        have := hi.past u
        rw [h1] at this
        obtain ⟨a1, a2, a3, a4, a5⟩ := this
        refine ⟨?_, ?_, ?_, ?_, ?_⟩ <;> rw [count_snoc] <;> simp [*, isSpawned, isBegan, isFinished, isFreed, isDied]
      · rename_i hu
        have hu' : ¬ t = u := fun h => hu h.symm
        exact past_other rfl (by simp [isBegan, hu']) rfl rfl rfl _ (hi.past u)
    · intro u p b' hp hb
      rw [h3] at hp
      rw [h4]
      split at hp
      · rename_i hu; subst hu
        cases hp
        obtain ⟨f', c', w, g1, g2⟩ := hi.own u _ b h1 rfl
        cases hb
        exact ⟨f', c', w, g1, mono g2⟩
      · obtain ⟨f', c', w, g1, g2⟩ := hi.own u p b' hp hb
        exact ⟨f', c', w, g1, mono g2⟩
    · intro u p u' p' b' hp hp' hb hb'
      rw [h3] at hp hp'
      split at hp <;> split at hp'
      · rw [‹u = t›, ‹u' = t›]
      · rename_i hu _; subst hu; cases hp; cases hb
        exact hi.inj u _ u' p' b h1 hp' rfl hb'
      · rename_i _ hu; subst hu; cases hp'; cases hb'
        exact hi.inj u p u' _ b hp h1 hb rfl
      · exact hi.inj u p u' p' b' hp hp' hb hb'
    · intro b' f' c' hb
      rw [h4] at hb
      rcases hi.used b' f' c' hb with ⟨u, p, g1, g2⟩ | ⟨u, g⟩
      · left
        by_cases hu : u = t
        · subst hu
          rw [h1] at g1; cases g1
          exact ⟨u, .run (some b) (fns f c), by rw [h3, if_pos rfl], g2⟩
        · exact ⟨u, p, by rw [h3, if_neg hu]; exact g1, g2⟩
      · exact .inr ⟨u, mono g⟩
  | finish t b h1 h3 h4 =>
    refine ⟨?_, ?_, ?_, ?_⟩
    · intro u
      rw [h3]
      split
      · rename_i hu; subst hu
        have := hi.past u
        rw [h1] at this
        obtain ⟨a1, a2, a3, a4, a5⟩ := this
        refine ⟨?_, ?_, ?_, ?_, ?_⟩ <;> rw [count_snoc] <;> simp [*, isSpawned, isBegan, isFinished, isFreed, isDied]
      · rename_i hu
        have hu' : ¬ t = u := fun h => hu h.symm
        exact past_other rfl rfl (by simp [isFinished, hu']) rfl rfl _ (hi.past u)
    · intro u p b' hp hb
      rw [h3] at hp
      rw [h4]
      split at hp
      · rename_i hu; subst hu
        cases hp
        obtain ⟨f', c', w, g1, g2⟩ := hi.own u _ b h1 rfl
        cases hb
        exact ⟨f', c', w, g1, mono g2⟩
      · obtain ⟨f', c', w, g1, g2⟩ := hi.own u p b' hp hb
        exact ⟨f', c', w, g1, mono g2⟩
    · intro u p u' p' b' hp hp' hb hb'
      rw [h3] at hp hp'
      split at hp <;> split at hp'
      · rw [‹u = t›, ‹u' = t›]
      · rename_i hu _; subst hu; cases hp; cases hb
        exact hi.inj u _ u' p' b h1 hp' rfl hb'
      · rename_i _ hu; subst hu; cases hp'; cases hb'
        exact hi.inj u p u' _ b hp h1 hb rfl
      · exact hi.inj u p u' p' b' hp hp' hb hb'
    · intro b' f' c' hb
      rw [h4] at hb
      rcases hi.used b' f' c' hb with ⟨u, p, g1, g2⟩ | ⟨u, g⟩
      · left
        by_cases hu : u = t
        · subst hu
          rw [h1] at g1; cases g1
          exact ⟨u, .fin b, by rw [h3, if_pos rfl], g2⟩
        · exact ⟨u, p, by rw [h3, if_neg hu]; exact g1, g2⟩
      · exact .inr ⟨u, mono g⟩
  | free t b f c h1 h2 h3 h4 =>
    refine ⟨?_, ?_, ?_, ?_⟩
    · intro u
      rw [h3]
      split
      · rename_i hu; subst hu
        have := hi.past u
        rw [h1] at this
        obtain ⟨a1, a2, a3, a4, a5⟩ := this
        refine .inl ⟨?_, ?_, ?_, ?_, ?_⟩ <;> rw [count_snoc] <;> simp [*, isSpawned, isBegan, isFinished, isFreed, isDied]
      · rename_i hu
        have hu' : ¬ t = u := fun h => hu h.symm
        exact past_other rfl rfl rfl (by simp [isFreed, hu']) rfl _ (hi.past u)
    · intro u p b' hp hb
      rw [h3] at hp
      split at hp
      · cases hp; cases hb
      · rename_i hu
        obtain ⟨f', c', w, g1, g2⟩ := hi.own u p b' hp hb
        have hne : b ≠ b' := by
          rintro rfl
          exact hu (hi.inj u p t _ b hp h1 hb rfl)
        refine ⟨f', c', w, ?_, mono g2⟩
        rw [h4, List.getElem?_set_ne hne]; exact g1
    · intro u p u' p' b' hp hp' hb hb'
      rw [h3] at hp hp'
      split at hp
      · cases hp; cases hb
      · split at hp'
        · cases hp'; cases hb'
        · exact hi.inj u p u' p' b' hp hp' hb hb'
    · intro b' f' c' hb
      rw [h4] at hb
      have hne : b ≠ b' := by
        rintro rfl
        rw [List.getElem?_set_self (List.getElem?_eq_some_iff.1 h2).1] at hb
        cases hb
      rw [List.getElem?_set_ne hne] at hb
      rcases hi.used b' f' c' hb with ⟨u, p, g1, g2⟩ | ⟨u, g⟩
      · left
        have hu : u ≠ t := by
          rintro rfl
          rw [h1] at g1; cases g1
          exact hne (by cases g2; rfl)
        exact ⟨u, p, by rw [h3, if_neg hu]; exact g1, g2⟩
      · exact .inr ⟨u, mono g⟩
  | die t b a k h1 ha hc h3 h4 =>
    refine ⟨?_, ?_, ?_, ?_⟩
    · intro u
      rw [h3]
      split
      · rename_i hu; subst hu
        have := hi.past u
        rw [h1] at this
        obtain ⟨a1, a2, a3, a4, a5⟩ := this
        refine .inr ⟨?_, ?_, ?_, ?_, ?_⟩ <;> rw [count_snoc] <;> simp [*, isSpawned, isBegan, isFinished, isFreed, isDied]
      · rename_i hu
        have hu' : ¬ t = u := fun h => hu h.symm
        exact past_other rfl rfl rfl rfl (by simp [isDied, hu']) _ (hi.past u)
    · intro u p b' hp hb
      rw [h3] at hp
      split at hp
      · cases hp; cases hb
      · rename_i hu
        obtain ⟨f', c', w, g1, g2⟩ := hi.own u p b' hp hb
        exact ⟨f', c', w, by rw [h4]; exact g1, mono g2⟩
    · intro u p u' p' b' hp hp' hb hb'
      rw [h3] at hp hp'
      split at hp
      · cases hp; cases hb
      · split at hp'
        · cases hp'; cases hb'
        · exact hi.inj u p u' p' b' hp hp' hb hb'
    · intro b' f' c' hb
      exact .inr ⟨t, by simp⟩
  | spawn t b f c k h1 h3 h4 =>
    have hlt := ph_lt h1
    have hnone : s.ph s.thr.length = none := ph_none.2 (Nat.le_refl _)
    have hown : ∀ u p b', s.ph u = some p → p.blk = some b' → b' < s.heap.length := by
      intro u p b' hp hb
      obtain ⟨_, _, _, g, _⟩ := hi.own u p b' hp hb
      exact (List.getElem?_eq_some_iff.1 g).1
    -- phases of the old threads, up to the code
    have old : ∀ u p, s'.ph u = some p → (u = s.thr.length ∧ p = .start s.heap.length) ∨
        ∃ q, s.ph u = some q ∧ q.blk = p.blk := by
      intro u p hp
      rw [h3] at hp
      split at hp
      · rename_i hu; subst hu; cases hp; exact .inr ⟨_, h1, rfl⟩
      · split at hp
        · rename_i hu; cases hp; exact .inl ⟨hu, rfl⟩
        · exact .inr ⟨p, hp, rfl⟩
    refine ⟨?_, ?_, ?_, ?_⟩
    · intro u
      rw [h3]
      split
      · rename_i hu; subst hu
        have hu' : ¬ s.thr.length = u := by omega
        exact past_other (by simp [isSpawned, hu']) rfl rfl rfl rfl _ (past_run (h1 ▸ hi.past u))
      · split
        · rename_i hu; subst hu
          have := hi.past s.thr.length
          rw [hnone] at this
          obtain ⟨a1, a2, a3, a4, a5⟩ := this
          refine ⟨?_, ?_, ?_, ?_, ?_⟩ <;> rw [count_snoc] <;> simp [*, isSpawned, isBegan, isFinished, isFreed, isDied]
        · rename_i hu
          have hu' : ¬ s.thr.length = u := fun h => hu h.symm
          exact past_other (by simp [isSpawned, hu']) rfl rfl rfl rfl _ (hi.past u)
    · intro u p b' hp hb
      rcases old u p hp with ⟨rfl, rfl⟩ | ⟨q, hq, hqb⟩
      · cases hb
        exact ⟨f, c, t, by rw [h4]; simp, by simp⟩
      · obtain ⟨f', c', w, g1, g2⟩ := hi.own u q b' hq (hqb.trans hb)
        refine ⟨f', c', w, ?_, mono g2⟩
        rw [h4, List.getElem?_append_left (List.getElem?_eq_some_iff.1 g1).1]; exact g1
    · intro u p u' p' b' hp hp' hb hb'
      rcases old u p hp with ⟨rfl, rfl⟩ | ⟨q, hq, hqb⟩
      · rcases old u' p' hp' with ⟨rfl, rfl⟩ | ⟨q', hq', hqb'⟩
        · rfl
        · have := hown u' q' b' hq' (hqb'.trans hb')
          cases hb; omega
      · rcases old u' p' hp' with ⟨rfl, rfl⟩ | ⟨q', hq', hqb'⟩
        · have := hown u q b' hq (hqb.trans hb)
          cases hb'; omega
        · exact hi.inj u q u' q' b' hq hq' (hqb.trans hb) (hqb'.trans hb')
    · intro b' f' c' hb
      rw [h4] at hb
      by_cases hlt' : b' < s.heap.length
      · rw [List.getElem?_append_left hlt'] at hb
        rcases hi.used b' f' c' hb with ⟨u, p, g1, g2⟩ | ⟨u, g⟩
        · left
          by_cases hu : u = t
          · subst hu
            rw [h1] at g1; cases g1
            exact ⟨u, .run b (k s.thr.length), by rw [h3, if_pos rfl], g2⟩
          · have hul := ph_lt g1
            exact ⟨u, p, by rw [h3, if_neg hu, if_neg (by omega)]; exact g1, g2⟩
        · exact .inr ⟨u, mono g⟩
      · left
        have : b' = s.heap.length := by
          have := (List.getElem?_eq_some_iff.1 hb).1
          simp at this; omega
        subst this
        exact ⟨s.thr.length, _, by rw [h3, if_neg (by omega), if_pos rfl], rfl⟩
  | other _ t b a k r he h1 h3 h4 =>
    have hheap : ∀ (b' f' c' : Nat), s'.heap[b']? = some (.live f' c') ↔ s.heap[b']? = some (.live f' c') := by
      intro b' f' c'
      rcases h4 with h4 | h4
      · rw [h4]
      · rw [h4]; exact snoc_iff _ (by simp) _
    have old : ∀ u p, s'.ph u = some p → ∃ q, s.ph u = some q ∧ q.blk = p.blk := by
      intro u p hp
      rw [h3] at hp
      split at hp
      · rename_i hu; subst hu; cases hp; exact ⟨_, h1, rfl⟩
      · exact ⟨p, hp, rfl⟩
    refine ⟨?_, ?_, ?_, ?_⟩
    · intro u
      rw [h3]
      split
      · rename_i hu; subst hu
        exact past_quiet he _ (past_run (h1 ▸ hi.past u))
      · exact past_quiet he _ (hi.past u)
    · intro u p b' hp hb
      obtain ⟨q, hq, hqb⟩ := old u p hp
      obtain ⟨f', c', w, g1, g2⟩ := hi.own u q b' hq (hqb.trans hb)
      exact ⟨f', c', w, (hheap ..).2 g1, mono g2⟩
    · intro u p u' p' b' hp hp' hb hb'
      obtain ⟨q, hq, hqb⟩ := old u p hp
      obtain ⟨q', hq', hqb'⟩ := old u' p' hp'
      exact hi.inj u q u' q' b' hq hq' (hqb.trans hb) (hqb'.trans hb')
    · intro b' f' c' hb
      rcases hi.used b' f' c' ((hheap ..).1 hb) with ⟨u, p, g1, g2⟩ | ⟨u, g⟩
      · left
        by_cases hu : u = t
        · subst hu
          rw [h1] at g1; cases g1
          exact ⟨u, .run b (k r), by rw [h3, if_pos rfl], g2⟩
        · exact ⟨u, p, by rw [h3, if_neg hu]; exact g1, g2⟩
      · exact .inr ⟨u, mono g⟩

theorem inv_init (main : Code) (n : Nat) (mem : Nat → Int) : Inv [] (init main n mem) := by
  have hph : ∀ t p, (init main n mem).ph t = some p → t = 0 ∧ p = .run none main := by
    intro t p h
    cases t with
    | zero => exact ⟨rfl, by simpa [State.ph, init] using h.symm⟩
    | succ t => simp [State.ph, init] at h
  refine ⟨?_, ?_, ?_, ?_⟩
  · intro t
    cases t with
    | zero => exact ⟨rfl, rfl, rfl, rfl, rfl⟩
    | succ t => exact ⟨rfl, rfl, rfl, rfl, rfl⟩
  · intro t p b hp hb
    obtain ⟨_, rfl⟩ := hph t p hp
    cases hb
  · intro t p t' p' b hp hp' hb hb'
    obtain ⟨_, rfl⟩ := hph t p hp
    cases hb
  · intro b f c hb
    simp [init] at hb

theorem inv_exec {fns : Nat → Nat → Code} {main : Code} {n : Nat} {mem : Nat → Int} {tr : List Ev} {s : State}
    (h : Exec fns (init main n mem) tr s) : Inv tr s := by
  induction h with
  | nil => exact inv_init main n mem
  | snoc _ _ hs ih => exact inv_move ih (step_move hs)

/-- the main thread owns no closure and does not end -/
theorem main_run {fns : Nat → Nat → Code} {main : Code} {n : Nat} {mem : Nat → Int} {tr : List Ev} {s : State}
    (h : Exec fns (init main n mem) tr s) : ∃ c, s.ph 0 = some (.run none c) := by
  induction h with
  | nil => exact ⟨main, rfl⟩
  | snoc _ _ hs ih =>
    obtain ⟨c0, ih⟩ := ih
    cases step_move hs with
    | begin t b f c h1 h2 h3 h4 =>
      have : 0 ≠ t := by rintro rfl; rw [ih] at h1; cases h1
      exact ⟨c0, by rw [h3, if_neg this]; exact ih⟩
    | finish t b h1 h3 h4 =>
      have : 0 ≠ t := by rintro rfl; rw [ih] at h1; cases h1
      exact ⟨c0, by rw [h3, if_neg this]; exact ih⟩
    | free t b f c h1 h2 h3 h4 =>
      have : 0 ≠ t := by rintro rfl; rw [ih] at h1; cases h1
      exact ⟨c0, by rw [h3, if_neg this]; exact ih⟩
    | die t b a k h1 ha hc h3 h4 =>
      have : 0 ≠ t := by rintro rfl; rw [ih] at h1; cases h1
      exact ⟨c0, by rw [h3, if_neg this]; exact ih⟩
    | spawn t b f c k h1 h3 h4 =>
      rw [h3]
      split
      · rename_i ht; subst ht; rw [ih] at h1; cases h1; exact ⟨_, rfl⟩
      · have := ph_lt ih
        rw [if_neg (by omega)]; exact ⟨c0, ih⟩
    | other _ t b a k r he h1 h3 h4 =>
      rw [h3]
      split
      · rename_i ht; subst ht; rw [ih] at h1; cases h1; exact ⟨_, rfl⟩
      · exact ⟨c0, ih⟩

theorem count_zero {q : Ev → Bool} {tr : List Ev} (h : count q tr = 0) : ∀ e ∈ tr, q e = false := by
  intro e he
  cases hq : q e with
  | false => rfl
  | true =>
    have := List.length_pos_of_mem (List.mem_filter.2 ⟨he, hq⟩)
    unfold count at h
    omega

theorem count_pos {q : Ev → Bool} {tr : List Ev} (h : count q tr ≠ 0) : ∃ e ∈ tr, q e = true := by
  unfold count at h
  cases hf : tr.filter q with
  | nil => rw [hf] at h; simp at h
  | cons e l =>
    have := List.mem_filter.1 (hf ▸ List.mem_cons_self : e ∈ tr.filter q)
    exact ⟨e, this.1, this.2⟩

theorem count_one {q : Ev → Bool} {tr : List Ev} (h : count q tr = 1) {e e' : Ev} (he : e ∈ tr) (he' : e' ∈ tr)
    (hq : q e = true) (hq' : q e' = true) : e = e' := by
  unfold count at h
  have h1 := List.mem_filter.2 ⟨he, hq⟩
  have h2 := List.mem_filter.2 ⟨he', hq'⟩
  obtain ⟨x, hx⟩ := List.length_eq_one_iff.1 h
  rw [hx] at h1 h2
  rw [List.mem_singleton.1 h1, List.mem_singleton.1 h2]

/-- what was freed stays so -/
theorem freed_stays {fns : Nat → Nat → Code} {s0 : State} {tr : List Ev} {s : State}
    (h : Exec fns s0 tr s) {t b : Nat} (hm : .freed t b ∈ tr) : s.heap[b]? = some .freed := by
  induction h with
  | nil => simp at hm
  | @snoc tr s e s' hx ha hs ih =>
    have app : ∀ y, s'.heap = s.heap ++ [y] → s.heap[b]? = some .freed → s'.heap[b]? = some .freed := by
      intro y h1 h2
      rw [h1, List.getElem?_append_left (List.getElem?_eq_some_iff.1 h2).1]
      exact h2
    rcases List.mem_append.1 hm with hm | hm
    · have ih := ih hm
      cases step_move hs with
      | begin _ _ _ _ _ _ _ h4 => rw [h4]; exact ih
      | finish _ _ _ _ h4 => rw [h4]; exact ih
      | free t' b' f c _ h2 _ h4 =>
        rw [h4]
        by_cases hb : b' = b
        · subst hb; rw [h2] at ih; cases ih
        · rw [List.getElem?_set_ne hb]; exact ih
      | die _ _ _ _ _ _ _ _ h4 => rw [h4]; exact ih
      | spawn _ _ _ _ _ _ _ h4 => exact app _ h4 ih
      | other _ _ _ _ _ _ _ _ _ h4 =>
        rcases h4 with h4 | h4
        · rw [h4]; exact ih
        · exact app _ h4 ih
    · have := (List.mem_singleton.1 hm).symm
      subst this
      cases hs with
      | @free _ _ f c h1 h2 =>
        show (s.heap.set b .freed)[b]? = _
        rw [List.getElem?_set_self (List.getElem?_eq_some_iff.1 h2).1]

/-! ## Mutexes -/

theorem holds_snoc {t m : Nat} {tr : List Ev} {e : Ev} :
    Holds t m (tr ++ [e]) ↔ e = .locked t m ∨ (Holds t m tr ∧ e ≠ .unlocked t m) := by
  constructor
  · rintro ⟨a, b, h, hb⟩
    rcases List.eq_nil_or_concat b with rfl | ⟨b, x, rfl⟩
    · left
      have := List.append_inj_right' h rfl
      injection this
    · right
      have h' : tr ++ [e] = (a ++ .locked t m :: b) ++ [x] := by rw [h]; simp
      have h1 := List.append_inj_left' h' rfl
      have h2 := List.append_inj_right' h' rfl
      injection h2 with h2 _
      subst h2
      refine ⟨⟨a, b, h1, fun q => hb (by simp [q])⟩, fun q => hb (by simp [q])⟩
  · rintro (rfl | ⟨⟨a, b, rfl, hb⟩, he⟩)
    · exact ⟨tr, [], by simp, by simp⟩
    · refine ⟨a, b ++ [e], by simp, ?_⟩
      rw [List.mem_append]
      rintro (q | q)
      · exact hb q
      · exact he (List.mem_singleton.1 q).symm

theorem set_held {l : List Mx} {m m' : Nat} {x : Mx} {t : Nat} (hx : l[m']? = some .free)
    (h : l[m]? = some (.held t)) : (l.set m' x)[m]? = some (.held t) := by
  have : m' ≠ m := by rintro rfl; rw [hx] at h; cases h
  rw [List.getElem?_set_ne this]; exact h

theorem held_iff {fns : Nat → Nat → Code} {main : Code} {n : Nat} {mem : Nat → Int} {tr : List Ev} {s : State}
    (h : Exec fns (init main n mem) tr s) (t m : Nat) : Holds t m tr ↔ s.mtx[m]? = some (.held t) := by
  induction h with
  | nil =>
    constructor
    · rintro ⟨a, b, h, _⟩; simp at h
    · intro h
      have h' : (List.replicate n Mx.free)[m]? = some (.held t) := h
      rw [List.getElem?_replicate] at h'
      split at h' <;> cases h'
  | @snoc tr s e s' _ _ hs ih =>
    rw [holds_snoc, ih]
    have keep : ∀ {e : Ev} {l : List Mx}, e ≠ .locked t m → e ≠ .unlocked t m → (l[m]? = some (.held t) ↔ s.mtx[m]? = some (.held t)) →
        (e = .locked t m ∨ s.mtx[m]? = some (.held t) ∧ e ≠ .unlocked t m ↔ l[m]? = some (.held t)) := by
      intro e l h1 h2 h3
      rw [h3]
      constructor
      · rintro (h | h)
        · exact absurd h h1
        · exact h.1
      · intro h; exact .inr ⟨h, h2⟩
    cases hs with
    | mnew h1 =>
      refine keep nofun nofun ?_
      show (s.mtx ++ [.free])[m]? = _ ↔ _
      exact snoc_iff _ (by simp) _
    | @lock t' b m' k h1 h2 =>
      show _ ↔ (s.mtx.set m' (.held t'))[m]? = _
      by_cases hm : m' = m
      · subst hm
        rw [List.getElem?_set_self (List.getElem?_eq_some_iff.1 h2).1, h2]
        constructor
        · rintro (h | h)
          · injection h with h; rw [h]
          · cases h.1
        · intro h; left; injection h with h; injection h with h; rw [h]
      · refine keep (by intro h; injection h with _ h; exact hm h) nofun ?_
        rw [List.getElem?_set_ne hm]
    | @unlock t' b m' k h1 h2 =>
      show _ ↔ (s.mtx.set m' .free)[m]? = _
      by_cases hm : m' = m
      · subst hm
        rw [List.getElem?_set_self (List.getElem?_eq_some_iff.1 h2).1, h2]
        constructor
        · rintro (h | ⟨h, h'⟩)
          · cases h
          · injection h with h; injection h with h; subst h; exact absurd rfl h'
        · intro h; cases h
      · refine keep nofun (by intro h; injection h with _ h; exact hm h) ?_
        rw [List.getElem?_set_ne hm]
    | @mfree t' b m' k h1 h2 =>
      refine keep nofun nofun ?_
      show (s.mtx.set m' .destroyed)[m]? = _ ↔ _
      by_cases hm : m' = m
      · subst hm
        rw [List.getElem?_set_self (List.getElem?_eq_some_iff.1 h2).1, h2]
        constructor <;> intro h <;> cases h
      · rw [List.getElem?_set_ne hm]
    | _ => exact keep nofun nofun Iff.rfl

/-- a destroyed mutex stays so -/
theorem destroyed_stays {fns : Nat → Nat → Code} {s0 : State} {tr : List Ev} {s : State}
    (h : Exec fns s0 tr s) {t m : Nat} (hm : .destroyed t m ∈ tr) : s.mtx[m]? = some .destroyed := by
  induction h with
  | nil => simp at hm
  | @snoc tr s e s' hx ha hs ih =>
    rcases List.mem_append.1 hm with hm | hm
    · have ih := ih hm
      have setne : ∀ {m' x y}, s.mtx[m']? = some x → x ≠ .destroyed → (s.mtx.set m' y)[m]? = some .destroyed := by
        intro m' x y h1 h2
        have : m' ≠ m := by rintro rfl; rw [ih] at h1; cases h1; exact h2 rfl
        rw [List.getElem?_set_ne this]; exact ih
      cases hs with
      | mnew =>
        show (s.mtx ++ [_])[m]? = _
        rw [List.getElem?_append_left (List.getElem?_eq_some_iff.1 ih).1]
        exact ih
      | lock h1 h2 => exact setne h2 nofun
      | unlock h1 h2 => exact setne h2 nofun
      | mfree h1 h2 => exact setne h2 nofun
      | _ => exact ih
    · have := (List.mem_singleton.1 hm).symm
      subst this
      cases hs with
      | mfree h1 h2 =>
        show (s.mtx.set m .destroyed)[m]? = _
        rw [List.getElem?_set_self (List.getElem?_eq_some_iff.1 h2).1]

/-- only the main thread owns no closure -/
theorem none_main {fns : Nat → Nat → Code} {main : Code} {n : Nat} {mem : Nat → Int} {tr : List Ev} {s : State}
    (h : Exec fns (init main n mem) tr s) {t : Nat} {c : Code} (hp : s.ph t = some (.run none c)) : t = 0 := by
  induction h generalizing t c with
  | nil =>
    have := ph_lt hp
    simp [init] at this
    exact this
  | @snoc tr s e s' hx ha hs ih =>
    have split' : ∀ {t' p'}, (∀ u, s'.ph u = if u = t' then some p' else s.ph u) →
        (∀ c, p' = .run none c → t' = 0) → t = 0 := by
      intro t' p' h1 h2
      rw [h1] at hp
      by_cases ht : t = t'
      · rw [if_pos ht] at hp
        injection hp with hp
        rw [ht]; exact h2 c hp
      · rw [if_neg ht] at hp; exact ih hp
    cases step_move hs with
    | begin t' b f c' h1 h2 h3 => exact split' h3 nofun
    | finish t' b h1 h3 => exact split' h3 nofun
    | free t' b f c' h1 h2 h3 => exact split' h3 nofun
    | die t' b a k h1 h2 h2' h3 => exact split' h3 nofun
    | spawn t' b f c' k h1 h3 =>
      rw [h3] at hp
      by_cases ht : t = t'
      · rw [if_pos ht] at hp
        cases hp
        subst ht
        exact ih h1
      · rw [if_neg ht] at hp
        by_cases hl : t = s.thr.length
        · rw [if_pos hl] at hp; cases hp
        · rw [if_neg hl] at hp; exact ih hp
    | other _ t' b a k r he h1 h3 h4 =>
      refine split' h3 ?_
      intro c' hc
      cases hc
      exact ih h1

end Verif.Thread
