import Verif.Thread.Tidy

/-! # Threads and mutexes: properties -/

namespace Verif.Thread
open Spec

/-! ## A program to try them on -/

/-- add one to variable 0 under mutex 0 -/
def addOne (k : Code) : Code :=
  .act (.lock 0) fun _ => .act (.load 0) fun v => .act (.store 0 (v + 1)) fun _ => .act (.unlock 0) fun _ => k

/-- what each thread of the example does -/
def worker (_ _ : Nat) : Code := addOne .done

/-- spawn a thread, add one, join -/
def demo : Code := .act (.spawn 7 9) fun r => addOne (if r < 0 then .done else .act (.join r.toNat) fun _ => .done)

/-- what happens: the new thread is first to lock -/
def demoTrace : List Ev :=
  [.spawned 0 1 7 9, .began 1 7 9, .locked 1 0, .loaded 1 0 5, .stored 1 0 6, .unlocked 1 0, .locked 0 0,
   .finished 1, .loaded 0 0 6, .stored 0 0 7, .unlocked 0 0, .freed 1 0, .joined 0 1]

theorem alive_act {s : State} {a : Act} {k : Int → Code} {b : Option Nat} (h : s.ph 0 = some (.run b (.act a k))) :
    Alive s := by
  intro h'
  rw [in_iff, h] at h'
  injection h' with h'
  injection h' with _ h'
  cases h'

/-- one more step -/
theorem Exec.next {fns : Nat → Nat → Code} {s0 s s' : State} {tr : List Ev} {e : Ev} {a : Act} {k : Int → Code}
    {b : Option Nat} (h : Exec fns s0 tr s) (ha : s.ph 0 = some (.run b (.act a k))) (hs : Step fns s e s') :
    Exec fns s0 (tr ++ [e]) s' := .snoc h (alive_act ha) hs

theorem demo_runs : ∃ s, Exec worker (init demo 1 fun _ => 5) demoTrace s ∧ s.In 0 (.run none .done) ∧
    s.In 1 .ended ∧ s.heap = [.freed] ∧ s.mem 0 = 7 ∧ s.thr.length = 2 := by
  have h := Exec.nil (fns := worker) (s0 := init demo 1 fun _ => 5)
  have h := h.next rfl (.spawn (t := 0) ⟨_, rfl, rfl⟩)
  have h := h.next rfl (.begin (t := 1) ⟨_, rfl, rfl⟩ rfl)
  have h := h.next rfl (.lock (t := 1) ⟨_, rfl, rfl⟩ rfl)
  have h := h.next rfl (.load (t := 1) ⟨_, rfl, rfl⟩)
  have h := h.next rfl (.store (t := 1) ⟨_, rfl, rfl⟩)
  have h := h.next rfl (.unlock (t := 1) ⟨_, rfl, rfl⟩ rfl)
  have h := h.next rfl (.lock (t := 0) ⟨_, rfl, rfl⟩ rfl)
  have h := h.next rfl (.finish (t := 1) ⟨_, rfl, rfl⟩)
  have h := h.next rfl (.load (t := 0) ⟨_, rfl, rfl⟩)
  have h := h.next rfl (.store (t := 0) ⟨_, rfl, rfl⟩)
  have h := h.next rfl (.unlock (t := 0) ⟨_, rfl, rfl⟩ rfl)
  have h := h.next rfl (.free (t := 1) ⟨_, rfl, rfl⟩ rfl)
  have h := h.next rfl (.join (t := 0) (u := 1) ⟨_, rfl, rfl⟩ rfl rfl rfl)
  exact ⟨_, h, ⟨_, rfl, rfl⟩, ⟨_, rfl, rfl⟩, rfl, rfl, rfl⟩

theorem worker_counts (f c : Nat) : Counts 0 0 false none 1 (worker f c) := by
  simp [worker, addOne, Counts]

theorem demo_counts : Counts 0 0 false none 1 demo := by
  simp only [demo, addOne, Counts]
  simp
  intro r
  split <;> simp [Counts]

theorem worker_tidy (f c : Nat) : Tidy 0 false [] (worker f c) := by
  simp [worker, addOne, Tidy]

theorem demo_tidy : Tidy 0 false [] demo := by
  simp only [demo, addOne, Tidy]
  simp
  intro r
  split <;> simp [Tidy]

/-! ## C103: the life of a thread -/

section Life

variable {fns : Nat → Nat → Code} {main : Code} {n : Nat} {mem : Nat → Int} {tr : List Ev} {s : State}

/-- a thread runs the function of its closure, with what it captured, and once -/
theorem runs_once (h : Exec fns (init main n mem) tr s) {p q : List Ev} {t f c : Nat}
    (ht : tr = p ++ .began t f c :: q) : (∃ u, Earlier (.spawned u t f c) p) ∧ ∀ f' c', .began t f' c' ∉ p := by
  obtain ⟨s1, s2, hx, hs⟩ := exec_prefix h p _ q ht
  have hi := inv_exec hx
  cases hs with
  | @begin _ b _ _ h1 h2 =>
    have h1' := in_iff.1 h1
    obtain ⟨f', c', u, h3, h4⟩ := hi.own t _ b h1' rfl
    rw [h2] at h3
    cases h3
    refine ⟨⟨u, h4⟩, fun f' c' hm => ?_⟩
    have hp := hi.past t
    rw [h1'] at hp
    have := count_zero hp.2.1 _ hm
    simp [isBegan] at this

/-- it returns after it began, once -/
theorem finishes_once (h : Exec fns (init main n mem) tr s) {p q : List Ev} {t : Nat}
    (ht : tr = p ++ .finished t :: q) : (∃ f c, Earlier (.began t f c) p) ∧ .finished t ∉ p := by
  obtain ⟨s1, s2, hx, hs⟩ := exec_prefix h p _ q ht
  have hi := inv_exec hx
  cases hs with
  | @finish _ b h1 =>
    have h1' := in_iff.1 h1
    have hp := hi.past t
    rw [h1'] at hp
    have hp' : Life p t 1 1 0 0 0 := hp
    obtain ⟨e, he, hq⟩ := count_pos (by rw [hp'.2.1]; decide)
    refine ⟨?_, fun hm => ?_⟩
    · cases e <;> simp [isBegan] at hq
      subst hq
      exact ⟨_, _, he⟩
    · have := count_zero hp'.2.2.1 _ hm
      simp [isFinished] at this

/-- its closure is freed after that, once, and by itself -/
theorem freed_once (h : Exec fns (init main n mem) tr s) {p q : List Ev} {t b : Nat}
    (ht : tr = p ++ .freed t b :: q) : Earlier (.finished t) p ∧ ∀ t' , .freed t' b ∉ p := by
  obtain ⟨s1, s2, hx, hs⟩ := exec_prefix h p _ q ht
  have hi := inv_exec hx
  cases hs with
  | @free _ _ f c h1 h2 =>
    have h1' := in_iff.1 h1
    have hp := hi.past t
    rw [h1'] at hp
    have hp' : Life p t 1 1 1 0 0 := hp
    obtain ⟨e, he, hq⟩ := count_pos (q := isFinished t) (by rw [hp'.2.2.1]; decide)
    refine ⟨?_, fun t' hm => ?_⟩
    · cases e <;> simp [isFinished] at hq
      subst hq
      exact he
    · have := freed_stays hx hm
      rw [h2] at this
      cases this

/-- `join` returns when the thread has returned, or was cancelled -/
theorem join_waits (h : Exec fns (init main n mem) tr s) {p q : List Ev} {t u : Nat}
    (ht : tr = p ++ .joined t u :: q) : Earlier (.finished u) p ∨ Earlier (.died u) p := by
  obtain ⟨s1, s2, hx, hs⟩ := exec_prefix h p _ q ht
  have hi := inv_exec hx
  cases hs with
  | @join _ b _ k th h1 h2 h3 h4 =>
    have hp := hi.past u
    rw [in_iff.1 ⟨th, h2, h3⟩] at hp
    rcases hp with hp | hp
    · left
      obtain ⟨e, he, hq⟩ := count_pos (q := isFinished u) (by rw [hp.2.2.1]; decide)
      cases e <;> simp [isFinished] at hq
      subst hq
      exact he
    · right
      obtain ⟨e, he, hq⟩ := count_pos (q := isDied u) (by rw [hp.2.2.2.2]; decide)
      cases e <;> simp [isDied] at hq
      subst hq
      exact he

/-- each `spawn` makes a thread of its own -/
theorem handle_fresh (h : Exec fns (init main n mem) tr s) {p q : List Ev} {t u f c : Nat}
    (ht : tr = p ++ .spawned t u f c :: q) :
    u ≠ 0 ∧ (∀ t' f' c', .spawned t' u f' c' ∉ p) ∧ ∀ e ∈ p, e ≠ .finished u ∧ e ≠ .died u ∧ ∀ f' c', e ≠ .began u f' c' := by
  obtain ⟨s1, s2, hx, hs⟩ := exec_prefix h p _ q ht
  have hi := inv_exec hx
  cases hs with
  | @spawn _ b _ _ k h1 =>
    have hp := hi.past s1.thr.length
    rw [ph_none.2 (Nat.le_refl _)] at hp
    have hp' : Life p s1.thr.length 0 0 0 0 0 := hp
    refine ⟨?_, ?_, ?_⟩
    · intro h0
      obtain ⟨c0, hm⟩ := main_run hx
      have := ph_lt hm
      omega
    · intro t' f' c' hm
      have := count_zero hp'.1 _ hm
      simp [isSpawned] at this
    · intro e he
      refine ⟨?_, ?_, ?_⟩
      · rintro rfl
        have := count_zero hp'.2.2.1 _ he
        simp [isFinished] at this
      · rintro rfl
        have := count_zero hp'.2.2.2.2 _ he
        simp [isDied] at this
      · rintro f' c' rfl
        have := count_zero hp'.2.1 _ he
        simp [isBegan] at this

/-- when nothing is left to run, each spawned thread ran its closure to the end -/
theorem all_ran (h : Exec fns (init main n mem) tr s) (hd : ∀ t, .died t ∉ tr)
    (hend : ∀ t p, t ≠ 0 → s.ph t = some p → p = .ended) {u t f c : Nat} (ht : .spawned u t f c ∈ tr) :
    .began t f c ∈ tr ∧ .finished t ∈ tr := by
  have hi := inv_exec h
  have hp := hi.past t
  have hne : t ≠ 0 := by
    obtain ⟨p, q, hpq⟩ := List.append_of_mem ht
    exact (handle_fresh h hpq).1
  cases hc : s.ph t with
  | none =>
    rw [hc] at hp
    have := count_zero hp.1 _ ht
    simp [isSpawned] at this
  | some p =>
    have := hend t p hne hc
    subst this
    rw [hc] at hp
    rcases hp with hp | hp
    · have w1 : .finished t ∈ tr := by
        obtain ⟨e, he, hq⟩ := count_pos (q := isFinished t) (by rw [hp.2.2.1]; decide)
        cases e <;> simp [isFinished] at hq
        subst hq
        exact he
      refine ⟨?_, w1⟩
      obtain ⟨e, he, hq⟩ := count_pos (q := isBegan t) (by rw [hp.2.1]; decide)
      cases e with
      | began t' f' c' =>
        simp [isBegan] at hq
        subst hq
        obtain ⟨p, q, hpq⟩ := List.append_of_mem he
        obtain ⟨⟨u', hu'⟩, _⟩ := runs_once h hpq
        have := count_one hp.1 ht (e' := .spawned u' t' f' c') (by rw [hpq]; simp [hu']) (by simp [isSpawned])
          (by simp [isSpawned])
        cases this
        exact he
      | _ => simp [isBegan] at hq
    · obtain ⟨e, he, hq⟩ := count_pos (q := isDied t) (by rw [hp.2.2.2.2]; decide)
      cases e <;> simp [isDied] at hq
      subst hq
      exact absurd he (hd _)

/-- and no closure is left -/
theorem no_leak (h : Exec fns (init main n mem) tr s) (hd : ∀ t, .died t ∉ tr)
    (hend : ∀ t p, t ≠ 0 → s.ph t = some p → p = .ended) : ∀ cell ∈ s.heap, cell = .freed := by
  intro cell hc
  cases cell with
  | freed => rfl
  | live f c =>
    obtain ⟨b, hb, hbe⟩ := List.getElem_of_mem hc
    rcases (inv_exec h).used b f c (List.getElem?_eq_some_iff.2 ⟨hb, hbe⟩) with ⟨t, p, h1, h2⟩ | ⟨t, ht⟩
    · by_cases h0 : t = 0
      · subst h0
        obtain ⟨c0, hm⟩ := main_run h
        rw [hm] at h1
        cases h1
        cases h2
      · have := hend t p h0 h1
        subst this
        cases h2
    · exact absurd ht (hd t)

/-- a thread never reads or frees a closure that is freed, whatever the program does -/
theorem trampoline_safe (h : Exec fns (init main n mem) tr s) {t b : Nat} (ht : s.In t (.start b) ∨ s.In t (.fin b)) :
    ∃ f c u, s.heap[b]? = some (.live f c) ∧ .spawned u t f c ∈ tr := by
  rcases ht with ht | ht
  · exact (inv_exec h).own t _ b (in_iff.1 ht) rfl
  · exact (inv_exec h).own t _ b (in_iff.1 ht) rfl

end Life

/-- the example: thread 1 ran and was joined -/
example : (.began 1 7 9 ∈ demoTrace ∧ .finished 1 ∈ demoTrace) ∧ ∃ s, Exec worker (init demo 1 fun _ => 5) demoTrace s ∧
    ∀ cell ∈ s.heap, cell = .freed := by
  obtain ⟨s, h, h0, h1, _, _, hl⟩ := demo_runs
  have hd : ∀ t, .died t ∉ demoTrace := by intro t; simp [demoTrace]
  have hend : ∀ t p, t ≠ 0 → s.ph t = some p → p = .ended := by
    intro t p ht hp
    have := ph_lt hp
    have : t = 1 := by omega
    subst this
    rw [in_iff.1 h1] at hp
    cases hp
    rfl
  exact ⟨all_ran h hd hend (u := 0) (by simp [demoTrace]), s, h, no_leak h hd hend⟩

/-- the example: before thread 0 joined it, thread 1 had returned -/
example : Earlier (.finished 1) (demoTrace.take 12) ∨ Earlier (.died 1) (demoTrace.take 12) := by
  obtain ⟨s, h, _⟩ := demo_runs
  exact join_waits h (q := []) (t := 0) rfl

/-- spawn a function and join what `spawn` returned -/
def spawnJoin (f c : Nat) : Code :=
  .act (.spawn f c) fun r => if r < 0 then .done else .act (.join r.toNat) fun _ => .done

theorem step_fits {fns : Nat → Nat → Code} {s s' : State} {e : Ev} (hs : Step fns s e s') (he : e.quiet = true) :
    ∃ t b a k r, s.ph t = some (.run b (.act a k)) ∧ (∀ u, s'.ph u = if u = t then some (.run b (k r)) else s.ph u) ∧
      (∀ f c, a = .spawn f c → e = .spawnFailed t) ∧ ∀ u, a = .join u → e = .joined t u ∨ e = .joinFailed t u ∧ u = t := by
  cases hs with
  | begin => cases he
  | finish => cases he
  | free => cases he
  | spawn => cases he
  | die => cases he
  | spawnOom h1 => exact ⟨_, _, _, _, _, at_iff.1 h1, ph_go (at_iff.1 h1), fun _ _ _ => rfl, nofun⟩
  | spawnFail h1 => exact ⟨_, _, _, _, _, at_iff.1 h1, ph_go (at_iff.1 h1), fun _ _ _ => rfl, nofun⟩
  | join h1 => exact ⟨_, _, _, _, _, at_iff.1 h1, fun u => by rw [ph_release, ph_go (at_iff.1 h1)], nofun,
      fun _ h => by cases h; exact .inl rfl⟩
  | joinSelf h1 => exact ⟨_, _, _, _, _, at_iff.1 h1, ph_go (at_iff.1 h1), nofun, fun _ h => by cases h; exact .inr ⟨rfl, rfl⟩⟩
  | detach h1 => exact ⟨_, _, _, _, _, at_iff.1 h1, fun u => by rw [ph_release, ph_go (at_iff.1 h1)], nofun, nofun⟩
  | cancel h1 => exact ⟨_, _, _, _, _, at_iff.1 h1, fun u => by
      rw [← ph_go (at_iff.1 h1)]; exact ph_mark (s.go _ _).thr _ (fun th => { th with cancelled := true }) (fun _ => rfl) u,
      nofun, nofun⟩
  | mnew h1 => exact ⟨_, _, _, _, _, at_iff.1 h1, ph_go (at_iff.1 h1), nofun, nofun⟩
  | lock h1 => exact ⟨_, _, _, _, _, at_iff.1 h1, ph_go (at_iff.1 h1), nofun, nofun⟩
  | unlock h1 => exact ⟨_, _, _, _, _, at_iff.1 h1, ph_go (at_iff.1 h1), nofun, nofun⟩
  | mfree h1 => exact ⟨_, _, _, _, _, at_iff.1 h1, ph_go (at_iff.1 h1), nofun, nofun⟩
  | load h1 => exact ⟨_, _, _, _, _, at_iff.1 h1, ph_go (at_iff.1 h1), nofun, nofun⟩
  | store h1 => exact ⟨_, _, _, _, _, at_iff.1 h1, ph_go (at_iff.1 h1), nofun, nofun⟩
  | sleep h1 => exact ⟨_, _, _, _, _, at_iff.1 h1, ph_go (at_iff.1 h1), nofun, nofun⟩

/-- the main thread at a call goes on by this call only -/
theorem main_step {fns : Nat → Nat → Code} {s s' : State} {e : Ev} {a : Act} {k : Int → Code} (hs : Step fns s e s')
    (hm : s.ph 0 = some (.run none (.act a k))) : s'.ph 0 = s.ph 0 ∨
      (∃ f c, a = .spawn f c ∧ (e = .spawnFailed 0 ∨ e = .spawned 0 s.thr.length f c ∧
        s'.ph 0 = some (.run none (k s.thr.length)))) ∨
      (∃ u, a = .join u ∧ (e = .joined 0 u ∨ u = 0)) ∨ ((∀ f c, a ≠ .spawn f c) ∧ ∀ u, a ≠ .join u) := by
  by_cases he : e.quiet = true
  · obtain ⟨t, b, a', k', r, h1, h2, h3, h4⟩ := step_fits hs he
    by_cases ht : t = 0
    · subst ht
      rw [hm] at h1
      cases h1
      cases a with
      | spawn f c => exact .inr (.inl ⟨f, c, rfl, .inl (h3 f c rfl)⟩)
      | join u =>
        refine .inr (.inr (.inl ⟨u, rfl, ?_⟩))
        rcases h4 u rfl with h | ⟨_, h⟩
        · exact .inl h
        · exact .inr h
      | _ => exact .inr (.inr (.inr ⟨nofun, nofun⟩))
    · left; rw [h2, if_neg (fun h => ht h.symm)]
  · cases step_move hs with
    | begin t b f c h1 _ h3 =>
      have : ¬ 0 = t := by rintro rfl; rw [hm] at h1; cases h1
      left; rw [h3, if_neg this]
    | finish t b h1 h3 =>
      have : ¬ 0 = t := by rintro rfl; rw [hm] at h1; cases h1
      left; rw [h3, if_neg this]
    | free t b f c h1 _ h3 =>
      have : ¬ 0 = t := by rintro rfl; rw [hm] at h1; cases h1
      left; rw [h3, if_neg this]
    | die t b _ _ h1 _ _ h3 =>
      have : ¬ 0 = t := by rintro rfl; rw [hm] at h1; cases h1
      left; rw [h3, if_neg this]
    | spawn t b f c k' h1 h3 =>
      by_cases ht : t = 0
      · subst ht
        rw [hm] at h1
        cases h1
        refine .inr (.inl ⟨f, c, rfl, .inr ⟨rfl, ?_⟩⟩)
        rw [h3, if_pos rfl]
      · left
        have : ¬ 0 = s.thr.length := by have := ph_lt hm; omega
        rw [h3, if_neg (fun h => ht h.symm), if_neg this]
    | other _ _ _ _ _ _ h => exact absurd h he

/-- `spawn` then `join`, whatever is spawned: when `main` returns, either `spawn` had failed, or the function ran
with what was captured, and is over -/
theorem spawn_then_join {fns : Nat → Nat → Code} {n f c : Nat} {mem : Nat → Int} {tr : List Ev} {s : State}
    (h : Exec fns (init (spawnJoin f c) n mem) tr s) (hend : s.In 0 (.run none .done)) :
    .spawnFailed 0 ∈ tr ∨ ∃ u, .spawned 0 u f c ∈ tr ∧ (.finished u ∈ tr ∨ .died u ∈ tr) := by
  have key : s.ph 0 = some (.run none (spawnJoin f c)) ∨ (∃ u, .spawned 0 u f c ∈ tr ∧
      s.ph 0 = some (.run none (.act (.join u) fun _ => .done))) ∨
      (.spawnFailed 0 ∈ tr ∨ ∃ u, .spawned 0 u f c ∈ tr ∧ .joined 0 u ∈ tr) := by
    clear hend
    induction h with
    | nil => exact .inl rfl
    | @snoc tr s e s' hx ha hs ih =>
      have more : ∀ {x : Ev}, x ∈ tr → x ∈ tr ++ [e] := fun h => List.mem_append_left _ h
      rcases ih with h | ⟨u, h1, h⟩ | h | ⟨u, h1, h2⟩
      · rcases main_step hs h with g | ⟨f', c', g1, g | ⟨g, g'⟩⟩ | ⟨u, g, _⟩ | ⟨g, _⟩
        · exact .inl (g.trans h)
        · exact .inr (.inr (.inl (by simp [g])))
        · cases g1
          refine .inr (.inl ⟨s.thr.length, by simp [g], ?_⟩)
          have : ¬ ((s.thr.length : Int) < 0) := by omega
          rw [if_neg this, Int.toNat_natCast] at g'
          exact g'
        · cases g
        · exact absurd rfl (g f c)
      · rcases main_step hs h with g | ⟨f', c', g1, _⟩ | ⟨u', g1, g | g⟩ | ⟨_, g⟩
        · exact .inr (.inl ⟨u, more h1, g.trans h⟩)
        · cases g1
        · cases g1
          exact .inr (.inr (.inr ⟨u, more h1, by simp [g]⟩))
        · cases g1
          obtain ⟨p, q, hpq⟩ := List.append_of_mem h1
          exact absurd g (handle_fresh hx hpq).1
        · exact absurd rfl (g u)
      · exact .inr (.inr (.inl (more h)))
      · exact .inr (.inr (.inr ⟨u, more h1, more h2⟩))
  rcases key with h1 | ⟨u, _, h1⟩ | h1 | ⟨u, h1, h2⟩
  · rw [in_iff, h1] at hend; cases hend
  · rw [in_iff, h1] at hend; cases hend
  · exact .inl h1
  · obtain ⟨p, q, hpq⟩ := List.append_of_mem h2
    refine .inr ⟨u, h1, ?_⟩
    rw [hpq]
    rcases join_waits h hpq with h3 | h3
    · exact .inl (List.mem_append_left _ h3)
    · exact .inr (List.mem_append_left _ h3)

/-- the example: all of it -/
example : ∃ s, Exec worker (init (spawnJoin 7 9) 1 fun _ => 5)
    [.spawned 0 1 7 9, .began 1 7 9, .locked 1 0, .loaded 1 0 5, .stored 1 0 6, .unlocked 1 0, .finished 1,
     .freed 1 0, .joined 0 1] s ∧ s.In 0 (.run none .done) := by
  have h := Exec.nil (fns := worker) (s0 := init (spawnJoin 7 9) 1 fun _ => 5)
  have h := h.next rfl (.spawn (t := 0) ⟨_, rfl, rfl⟩)
  have h := h.next rfl (.begin (t := 1) ⟨_, rfl, rfl⟩ rfl)
  have h := h.next rfl (.lock (t := 1) ⟨_, rfl, rfl⟩ rfl)
  have h := h.next rfl (.load (t := 1) ⟨_, rfl, rfl⟩)
  have h := h.next rfl (.store (t := 1) ⟨_, rfl, rfl⟩)
  have h := h.next rfl (.unlock (t := 1) ⟨_, rfl, rfl⟩ rfl)
  have h := h.next rfl (.finish (t := 1) ⟨_, rfl, rfl⟩)
  have h := h.next rfl (.free (t := 1) ⟨_, rfl, rfl⟩ rfl)
  have h := h.next rfl (.join (t := 0) (u := 1) ⟨_, rfl, rfl⟩ rfl rfl rfl)
  exact ⟨_, h, _, rfl, rfl⟩

/-- a thread that does nothing -/
def idle (_ _ : Nat) : Code := .done

/-- `join` of a thread that was joined is undefined, although `join` returns a `Result` -/
theorem join_twice_violated : ∃ tr s, Exec idle (init (.act (.spawn 0 0) fun r =>
      .act (.join r.toNat) fun _ => .act (.join r.toNat) fun _ => .done) 0 fun _ => 0) tr s ∧ Bad s := by
  have h := Exec.nil (fns := idle) (s0 := init (.act (.spawn 0 0) fun r =>
      .act (.join r.toNat) fun _ => .act (.join r.toNat) fun _ => .done) 0 fun _ => 0)
  have h := h.next rfl (.spawn (t := 0) ⟨_, rfl, rfl⟩)
  have h := h.next rfl (.begin (t := 1) ⟨_, rfl, rfl⟩ rfl)
  have h := h.next rfl (.finish (t := 1) ⟨_, rfl, rfl⟩)
  have h := h.next rfl (.free (t := 1) ⟨_, rfl, rfl⟩ rfl)
  have h := h.next rfl (.join (t := 0) (u := 1) ⟨_, rfl, rfl⟩ rfl rfl rfl)
  exact ⟨_, _, h, .join (t := 0) (u := 1) ⟨_, rfl, rfl⟩ rfl rfl⟩

/-- and so is `join` of a thread that was detached -/
theorem join_detached_violated : ∃ tr s, Exec idle (init (.act (.spawn 0 0) fun r =>
      .act (.detach r.toNat) fun _ => .act (.join r.toNat) fun _ => .done) 0 fun _ => 0) tr s ∧ Bad s := by
  have h := Exec.nil (fns := idle) (s0 := init (.act (.spawn 0 0) fun r =>
      .act (.detach r.toNat) fun _ => .act (.join r.toNat) fun _ => .done) 0 fun _ => 0)
  have h := h.next rfl (.spawn (t := 0) ⟨_, rfl, rfl⟩)
  have h := h.next rfl (.detach (t := 0) (u := 1) ⟨_, rfl, rfl⟩ rfl rfl)
  exact ⟨_, _, h, .join (t := 0) (u := 1) ⟨_, rfl, rfl⟩ rfl rfl⟩

/-- lock, sleep, unlock -/
def sleeper (_ _ : Nat) : Code := .act (.lock 0) fun _ => .act .sleep fun _ => .act (.unlock 0) fun _ => .done

/-- spawn, cancel, join, lock -/
def canceller : Code := .act (.spawn 0 0) fun r => .act (.cancel r.toNat) fun _ => .act (.join r.toNat) fun _ =>
  .act (.lock 0) fun _ => .act (.unlock 0) fun _ => .done

/-- `cancel`: the closure of the thread is never freed, and a mutex it holds stays locked, so that others wait
for ever -/
theorem cancel_violated : ∃ tr s, Exec sleeper (init canceller 1 fun _ => 0) tr s ∧ s.In 1 .ended ∧
    s.heap = [.live 0 0] ∧ s.mtx = [.held 1] ∧ Alive s ∧ ¬ ∃ e s', Step sleeper s e s' := by
  have h := Exec.nil (fns := sleeper) (s0 := init canceller 1 fun _ => 0)
  have h := h.next rfl (.spawn (t := 0) ⟨_, rfl, rfl⟩)
  have h := h.next rfl (.begin (t := 1) ⟨_, rfl, rfl⟩ rfl)
  have h := h.next rfl (.lock (t := 1) ⟨_, rfl, rfl⟩ rfl)
  have h := h.next rfl (.cancel (t := 0) (u := 1) ⟨_, rfl, rfl⟩ rfl rfl)
  have h := h.next rfl (.die (t := 1) rfl rfl rfl rfl)
  have h := h.next rfl (.join (t := 0) (u := 1) ⟨_, rfl, rfl⟩ rfl rfl rfl)
  refine ⟨_, _, h, ⟨_, rfl, rfl⟩, rfl, rfl, alive_act rfl, ?_⟩
  rintro ⟨e, s', hs⟩
  generalize hst : State.release _ _ = st at hs
  have p0 : st.ph 0 = some (.run none (.act (.lock 0) fun _ => .act (.unlock 0) fun _ => .done)) := by subst hst; rfl
  have p1 : st.ph 1 = some .ended := by subst hst; rfl
  have p2 : st.thr.length = 2 := by subst hst; rfl
  have p3 : st.mtx = [.held 1] := by subst hst; rfl
  clear hst h
  have only : ∀ {t p}, st.ph t = some p → p ≠ .ended →
      t = 0 ∧ p = .run none (.act (.lock 0) fun _ => .act (.unlock 0) fun _ => .done) := by
    intro t p hp hne
    have := ph_lt hp
    match t with
    | 0 => rw [p0] at hp; cases hp; exact ⟨rfl, rfl⟩
    | 1 => rw [p1] at hp; cases hp; exact absurd rfl hne
    | t + 2 => omega
  by_cases he : e.quiet = true
  · cases hs with
    | lock h1 h2 =>
      obtain ⟨_, h3⟩ := only (at_iff.1 h1) nofun
      cases h3
      rw [p3] at h2
      cases h2
    | begin => cases he
    | finish => cases he
    | free => cases he
    | spawn => cases he
    | die => cases he
    | spawnOom h1 => obtain ⟨_, h3⟩ := only (at_iff.1 h1) nofun; cases h3
    | spawnFail h1 => obtain ⟨_, h3⟩ := only (at_iff.1 h1) nofun; cases h3
    | join h1 => obtain ⟨_, h3⟩ := only (at_iff.1 h1) nofun; cases h3
    | joinSelf h1 => obtain ⟨_, h3⟩ := only (at_iff.1 h1) nofun; cases h3
    | detach h1 => obtain ⟨_, h3⟩ := only (at_iff.1 h1) nofun; cases h3
    | cancel h1 => obtain ⟨_, h3⟩ := only (at_iff.1 h1) nofun; cases h3
    | mnew h1 => obtain ⟨_, h3⟩ := only (at_iff.1 h1) nofun; cases h3
    | unlock h1 => obtain ⟨_, h3⟩ := only (at_iff.1 h1) nofun; cases h3
    | mfree h1 => obtain ⟨_, h3⟩ := only (at_iff.1 h1) nofun; cases h3
    | load h1 => obtain ⟨_, h3⟩ := only (at_iff.1 h1) nofun; cases h3
    | store h1 => obtain ⟨_, h3⟩ := only (at_iff.1 h1) nofun; cases h3
    | sleep h1 => obtain ⟨_, h3⟩ := only (at_iff.1 h1) nofun; cases h3
  · cases step_move hs with
    | begin t b f c h1 => obtain ⟨_, h3⟩ := only h1 nofun; cases h3
    | finish t b h1 => obtain ⟨_, h3⟩ := only h1 nofun; cases h3
    | free t b f c h1 => obtain ⟨_, h3⟩ := only h1 nofun; cases h3
    | die t b _ _ h1 => obtain ⟨_, h3⟩ := only h1 nofun; cases h3
    | spawn t b f c k' h1 => obtain ⟨_, h3⟩ := only h1 nofun; cases h3
    | other _ _ _ _ _ _ h => exact he h

/-- `Mutex::new` when there is no memory -/
theorem mutex_oom_violated (s : State) (t : Nat) (b : Option Nat) (k : Int → Code) (h : s.At t b .mnew k) : Bad s :=
  .mnew h

/-! ## C104: mutexes -/

/-- between two `lock`s of a mutex the first thread has unlocked it -/
theorem exclusive {fns : Nat → Nat → Code} {main : Code} {n : Nat} {mem : Nat → Int} {tr : List Ev} {s : State}
    (h : Exec fns (init main n mem) tr s) {p q r : List Ev} {t t' m : Nat}
    (ht : tr = p ++ .locked t m :: (q ++ .locked t' m :: r)) : .unlocked t m ∈ q := by
  apply Classical.byContradiction
  intro hn
  obtain ⟨s1, s2, hx, hs⟩ := exec_prefix h (p ++ .locked t m :: q) (.locked t' m) r (by rw [ht]; simp)
  have hh := (held_iff hx t m).1 ⟨p, q, rfl, hn⟩
  cases hs with
  | lock _ h2 => rw [hh] at h2; cases h2

/-- only who holds a mutex unlocks it -/
theorem unlock_owner {fns : Nat → Nat → Code} {main : Code} {n : Nat} {mem : Nat → Int} {tr : List Ev} {s : State}
    (h : Exec fns (init main n mem) tr s) {p q : List Ev} {t m : Nat} (ht : tr = p ++ .unlocked t m :: q) :
    Holds t m p := by
  obtain ⟨s1, s2, hx, hs⟩ := exec_prefix h p _ q ht
  cases hs with
  | unlock _ h2 => exact (held_iff hx t m).2 h2

/-- at most one thread holds a mutex at any time -/
theorem one_holder {fns : Nat → Nat → Code} {main : Code} {n : Nat} {mem : Nat → Int} {tr : List Ev} {s : State}
    (h : Exec fns (init main n mem) tr s) {t t' m : Nat} (h1 : Holds t m tr) (h2 : Holds t' m tr) : t = t' := by
  have h1 := (held_iff h t m).1 h1
  rw [(held_iff h t' m).1 h2] at h1
  cases h1
  rfl

/-- a mutex that is destroyed is not locked again -/
theorem destroyed_last {fns : Nat → Nat → Code} {main : Code} {n : Nat} {mem : Nat → Int} {tr : List Ev} {s : State}
    (h : Exec fns (init main n mem) tr s) {p q : List Ev} {t t' m : Nat} (ht : tr = p ++ .locked t m :: q) :
    .destroyed t' m ∉ p ∧ ∀ t'', ¬ Holds t'' m p := by
  obtain ⟨s1, s2, hx, hs⟩ := exec_prefix h p _ q ht
  cases hs with
  | lock _ h2 =>
    refine ⟨fun hm => ?_, fun t'' hh => ?_⟩
    · rw [destroyed_stays hx hm] at h2; cases h2
    · rw [(held_iff hx t'' m).1 hh] at h2; cases h2

/-- in the example both threads lock the mutex -/
example : .unlocked 1 0 ∈ [Ev.loaded 1 0 5, .stored 1 0 6, .unlocked 1 0] := by
  obtain ⟨s, h, _⟩ := demo_runs
  exact exclusive h (t' := 0) (p := demoTrace.take 2) (r := demoTrace.drop 7) rfl

theorem sum_zero : ∀ l : List Nat, (∀ a ∈ l, a = 0) → l.sum = 0
  | [], _ => rfl
  | a :: l, h => by
    have h1 := h a (by simp)
    have h2 := sum_zero l fun b hb => h b (by simp [hb])
    simp [h1, h2]

/-- threads that add to a variable only under the mutex lose no addition: at the end the value is what it was,
and one for each addition of `main` and of each thread spawned, in any order they run -/
theorem counter {fns : Nat → Nat → Code} {N : Nat → Nat → Nat} {m x n0 k : Nat} {main : Code} {mem : Nat → Int}
    {tr : List Ev} {s : State} (hf : ∀ f c, Counts m x false none (N f c) (fns f c))
    (h0 : Counts m x false none n0 main) (h : Exec fns (init main k mem) tr s) (hd : ∀ t, .died t ∉ tr)
    (hmain : s.In 0 (.run none .done)) (hend : ∀ t p, t ≠ 0 → s.ph t = some p → p = .ended) :
    s.mem x = mem x + n0 + spawnSum N tr := by
  obtain ⟨ns, hi⟩ := cinv_exec hf h0 h hd
  have hz : ∀ (t n : Nat), ns[t]? = some n → n = 0 := by
    intro t n hn
    have htl : t < s.thr.length := by rw [← hi.len]; exact (List.getElem?_eq_some_iff.1 hn).1
    cases hp : s.ph t with
    | none => have := ph_none.1 hp; omega
    | some p =>
      have hc := hi.each t n p hn hp
      by_cases h0 : t = 0
      · subst h0
        rw [in_iff.1 hmain] at hp
        cases hp
        obtain ⟨l, g, _⟩ := hc
        exact g.2
      · have := hend t p h0 hp
        subst this
        exact hc.1
  have hsum : ns.sum = 0 := by
    refine sum_zero _ fun a ha => ?_
    obtain ⟨i, hi', he⟩ := List.getElem_of_mem ha
    exact hz i a (List.getElem?_eq_some_iff.2 ⟨hi', he⟩)
  have := hi.sum
  rw [hsum] at this
  simpa using this

/-- the example: 5, and one by each of two threads -/
example : ∃ s, Exec worker (init demo 1 fun _ => 5) demoTrace s ∧ s.mem 0 = 5 + (1 : Nat) + spawnSum (fun _ _ => 1) demoTrace := by
  obtain ⟨s, h, h0, h1, _, _, hl⟩ := demo_runs
  refine ⟨s, h, counter worker_counts demo_counts h (by intro t; simp [demoTrace]) h0 ?_⟩
  intro t p ht hp
  have := ph_lt hp
  have : t = 1 := by omega
  subst this
  rw [in_iff.1 h1] at hp
  cases hp
  rfl

/-- without the mutex an addition is lost: the hypothesis is needed -/
theorem race : ∃ tr s, Exec (fun _ _ => .act (.load 0) fun v => .act (.store 0 (v + 1)) fun _ => .done)
    (init (.act (.spawn 0 0) fun r => .act (.load 0) fun v => .act (.store 0 (v + 1)) fun _ =>
      .act (.join r.toNat) fun _ => .done) 0 fun _ => 0) tr s ∧ s.In 0 (.run none .done) ∧ s.In 1 .ended ∧ s.mem 0 = 1 := by
  have h := Exec.nil (fns := fun _ _ => .act (.load 0) fun v => .act (.store 0 (v + 1)) fun _ => .done)
    (s0 := init (.act (.spawn 0 0) fun r => .act (.load 0) fun v => .act (.store 0 (v + 1)) fun _ =>
      .act (.join r.toNat) fun _ => .done) 0 fun _ => 0)
  have h := h.next rfl (.spawn (t := 0) ⟨_, rfl, rfl⟩)
  have h := h.next rfl (.begin (t := 1) ⟨_, rfl, rfl⟩ rfl)
  have h := h.next rfl (.load (t := 1) ⟨_, rfl, rfl⟩)
  have h := h.next rfl (.load (t := 0) ⟨_, rfl, rfl⟩)
  have h := h.next rfl (.store (t := 1) ⟨_, rfl, rfl⟩)
  have h := h.next rfl (.store (t := 0) ⟨_, rfl, rfl⟩)
  have h := h.next rfl (.finish (t := 1) ⟨_, rfl, rfl⟩)
  have h := h.next rfl (.free (t := 1) ⟨_, rfl, rfl⟩ rfl)
  have h := h.next rfl (.join (t := 0) (u := 1) ⟨_, rfl, rfl⟩ rfl rfl rfl)
  exact ⟨_, _, h, ⟨_, rfl, rfl⟩, ⟨_, rfl, rfl⟩, rfl⟩

/-- programs in which each thread joins or detaches, once, the threads it spawned, and which do not wait while
they hold the mutex: no step is undefined -/
theorem tidy_safe {fns : Nat → Nat → Code} {main : Code} {mem : Nat → Int} {tr : List Ev} {s : State}
    (hf : ∀ f c, Tidy 0 false [] (fns f c)) (h0 : Tidy 0 false [] main) (h : Exec fns (init main 1 mem) tr s) :
    ¬ Bad s := by
  obtain ⟨K, hi⟩ := tinv_exec hf h0 h
  exact tidy_not_bad (inv_exec h) hi

/-- and they do not block: as long as `main` has not returned some thread can go on -/
theorem tidy_progress {fns : Nat → Nat → Code} {main : Code} {mem : Nat → Int} {tr : List Ev} {s : State}
    (hf : ∀ f c, Tidy 0 false [] (fns f c)) (h0 : Tidy 0 false [] main) (h : Exec fns (init main 1 mem) tr s)
    (ha : Alive s) : ∃ e s', Step fns s e s' := by
  obtain ⟨K, hi⟩ := tinv_exec hf h0 h
  have hv := inv_exec h
  obtain ⟨c0, hm⟩ := main_run h
  have hnone : ∀ {t p}, s.ph t = some p → ∀ b, p = .run b .done → b ≠ none := by
    rintro t p hp b rfl rfl
    by_cases ht : t = 0
    · subst ht; exact ha (in_iff.2 hp)
    · exact ht (none_main h hp)
  rcases hi.mtx with hfree | ⟨t, hheld⟩
  · obtain ⟨t, p, h1, h2, h3⟩ := last_thread hm nofun
    refine can_step hv hi h1 h2 (hnone h1) (fun _ _ _ _ => by rw [hfree]; rfl) ?_
    intro b u k hp hu
    obtain ⟨q1, q2⟩ := hi.kids t u hu
    cases hc : s.ph u with
    | none =>
      have := ph_none.1 hc
      unfold State.jn at q2
      rw [List.getElem?_eq_none this] at q2
      cases q2
    | some q => rw [h3 u q q1 hc]
  · have hh : s.hd 0 t = true := by simp [State.hd, hheld]
    cases hp : s.ph t with
    | none =>
      have := (hi.ghost t (ph_none.1 hp)).1
      rw [hh] at this; cases this
    | some p =>
      have g := hi.each t p hp
      rw [hh] at g
      refine can_step hv hi hp ?_ (hnone hp) ?_ ?_
      · rintro rfl; cases g
      · rintro b m k rfl
        obtain ⟨_, g, _⟩ := g
        cases g
      · rintro b u k rfl _
        obtain ⟨g, _⟩ := g
        cases g

/-- the example is such a program -/
example {tr : List Ev} {s : State} (h : Exec worker (init demo 1 fun _ => 5) tr s) :
    ¬ Bad s ∧ (Alive s → ∃ e s', Step worker s e s') :=
  ⟨tidy_safe worker_tidy demo_tidy h, tidy_progress worker_tidy demo_tidy h⟩

/-! ## C105: `sleep_ms` -/

/-- it sleeps this many milliseconds, up to 2147483 -/
theorem sleep_partial {ms : Int} (h0 : 0 ≤ ms) (h1 : ms ≤ 2147483) :
    ∃ us, sleepMs ms = .ok us ∧ (us : Int) = 1000 * ms := by
  unfold sleepMs
  rw [if_pos (by omega)]
  refine ⟨_, rfl, ?_⟩
  omega

/-- above it is undefined -/
theorem sleep_long_violated {ms : Int} (h : 2147483 < ms) : sleepMs ms = .ub := by
  unfold sleepMs
  rw [if_neg (by omega)]

/-- and a negative time is more than half an hour -/
theorem sleep_negative_violated {ms : Int} (h0 : ms < 0) (h1 : -2147483 ≤ ms) :
    ∃ us, sleepMs ms = .ok us ∧ 1800 * 1000 * 1000 < us := by
  unfold sleepMs
  rw [if_pos (by omega)]
  refine ⟨_, rfl, ?_⟩
  have : ms * 1000 % 2 ^ 32 = ms * 1000 + 2 ^ 32 := by
    have : ms * 1000 / 4294967296 = -1 := by omega
    omega
  omega

example : sleepMs 1500 = .ok 1500000 ∧ sleepMs (-1) = .ok 4294966296 ∧ sleepMs 3600000 = .ub := by decide

end Verif.Thread
