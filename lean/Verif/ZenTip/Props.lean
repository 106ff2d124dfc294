import Verif.ZenTip.Model

/-!
# The tips of the compiler: theorems
-/

namespace Verif.ZenTip
open Verif

theorem mapName_name (t : Trigger) : mapName (Spec.name t) = t := by cases t <;> decide +kernel

theorem name_inj (a b : Trigger) (h : Spec.name a = Spec.name b) : a = b := by
  rw [← mapName_name a, h, mapName_name]

/-- `Res.bind` on a result. -/
theorem bind_ok {α β : Type} (a : α) (f : α → Res β) : (Res.ok a).bind f = f a := rfl

/-! ## The search -/

theorem matching_filter (t : Trigger) : ∀ (room : Nat) (fs : List Fact), 1 ≤ room →
    matching t room fs = (fs.filter (fun f => f.trigger = t)).take room
  | room, [], _ => by simp [matching]
  | room, f :: r, h => by
    rw [matching]
    by_cases hf : f.trigger = t
    · rw [if_pos hf, List.filter_cons_of_pos (by simpa using hf)]
      split
      · have : room = 1 := by omega
        subst this; simp
      · obtain ⟨k, rfl⟩ : ∃ k, room = k + 1 := ⟨room - 1, by omega⟩
        rw [List.take_succ_cons, Nat.add_sub_cancel, matching_filter t k r (by omega)]
    · rw [if_neg hf, List.filter_cons_of_neg (by simpa using hf), matching_filter t room r h]

theorem pick_cases (file : Option (List Item)) (s : State) (t : Trigger) (r : Nat) :
    pick file s t r = .ok (s, []) ∨ pick file s t r = .ub ∨
    ∃ x is f, pick file s t r = .ok ({ s with triggered := true }, [x]) ∧ file = some is ∧
      f ∈ is ∧ (fact f).trigger = t ∧ f.message = some x.message ∧ f.url = x.url := by
  unfold pick
  cases file with
  | none => exact .inl rfl
  | some is =>
    dsimp only
    rw [matching_filter t 10 _ (by decide)]
    split
    · exact .inl rfl
    · rename_i f hf
      have hm := List.mem_of_mem_take (List.mem_of_getElem? hf)
      rw [List.mem_filter, List.mem_map] at hm
      obtain ⟨⟨i, hi, rfl⟩, ht⟩ := hm
      split
      · exact .inr (.inl rfl)
      · rename_i m hmm
        exact .inr (.inr ⟨⟨m, _⟩, is, i, rfl, rfl, hi, by simpa using ht, hmm, rfl⟩)

/-- What a step can do. -/
theorem step_cases (c : Config) (file : Option (List Item)) (s : State) (e : Event) :
    (∃ w, w ≥ s.warnings ∧
      step c file s e = .ok ({ s with warnings := w }, [])) ∨
    (c.quiet = false ∧ c.noZen = false ∧ s.triggered = false ∧ s.warnings = 0 ∧
      ∃ t r, Spec.asks e = some t ∧ step c file s e = pick file s t r) := by
  cases e with
  | warn => exact .inl ⟨s.warnings + 1, by omega, rfl⟩
  | «at» t r1 r2 =>
    have stay : ∀ x, x = (.ok (s, []) : Res (State × List Tip)) → ∃ w, w ≥ s.warnings ∧
        x = .ok ({ s with warnings := w }, []) :=
      fun x hx => ⟨s.warnings, Nat.le_refl _, hx⟩
    rw [step]
    split
    · exact .inl (stay _ rfl)
    · rename_i h1
      split
      · exact .inl (stay _ rfl)
      · rename_i h2
        split
        · exact .inl (stay _ rfl)
        · rename_i h3
          split
          · exact .inl (stay _ rfl)
          · simp only [Bool.or_eq_true, not_or, Bool.not_eq_true] at h1
            exact .inr ⟨h1.1, h1.2, by simpa using h2, by omega, t, r2, rfl, rfl⟩
  | finish tty r1 r2 =>
    have stay : ∀ x, x = (.ok (s, []) : Res (State × List Tip)) → ∃ w, w ≥ s.warnings ∧
        x = .ok ({ s with warnings := w }, []) :=
      fun x hx => ⟨s.warnings, Nat.le_refl _, hx⟩
    rw [step]
    split
    · exact .inl (stay _ rfl)
    · rename_i h1
      split
      · exact .inl (stay _ rfl)
      · split
        · exact .inl (stay _ rfl)
        · rename_i h2
          split
          · exact .inl (stay _ rfl)
          · rename_i h3
            split
            · exact .inl (stay _ rfl)
            · simp only [Bool.or_eq_true, not_or, Bool.not_eq_true] at h1
              exact .inr ⟨h1.1, h1.2, by simpa using h2, by omega, .global, r2, rfl, rfl⟩

/-! ## How often -/

/-- Nothing more is printed once there was a tip or a warning, or if tips are off. -/
theorem run_silent (c : Config) (file : Option (List Item)) : ∀ (es : List Event) (s : State),
    (c.quiet = true ∨ c.noZen = true ∨ s.triggered = true ∨ s.warnings > 0) →
    run c file s es = .ok []
  | [], _, _ => rfl
  | e :: r, s, h => by
    rw [run]
    rcases step_cases c file s e with ⟨w, hw, he⟩ | ⟨h1, h2, h3, h4, _⟩
    · rw [he, bind_ok, run_silent c file r _ (by
        rcases h with h | h | h | h
        · exact .inl h
        · exact .inr (.inl h)
        · exact .inr (.inr (.inl h))
        · exact .inr (.inr (.inr (Nat.lt_of_lt_of_le h hw))))]
      rfl
    · rcases h with h | h | h | h
      · rw [h1] at h; cases h
      · rw [h2] at h; cases h
      · rw [h3] at h; cases h
      · omega

/-- Whatever the file and whatever happens: with `--quiet` or `--no-zen` there is no tip, and the file
does no harm. -/
theorem off_silent (c : Config) (h : c.quiet = true ∨ c.noZen = true) (file : Option (List Item))
    (es : List Event) : run c file start es = .ok [] :=
  run_silent c file es start (by rcases h with h | h; exact .inl h; exact .inr (.inl h))

/-- Whatever happened before: nothing is printed after a warning. -/
theorem after_warning (c : Config) (file : Option (List Item)) (post : List Event) :
    ∀ (pre : List Event) (s : State),
      run c file s (pre ++ .warn :: post) = run c file s pre
  | [], s => by
    show (step c file s .warn).bind _ = _
    rw [step, bind_ok, run_silent c file post _ (.inr (.inr (.inr (Nat.succ_pos _))))]
    rfl
  | e :: r, s => by
    rw [List.cons_append, run, run]
    congr 1
    funext x
    rw [after_warning c file post r x.1]

/-- At most one tip in a compilation, and it is one of the file, for a trigger that came up. -/
theorem once_fits (c : Config) (is : List Item)
    (hg : ∀ i ∈ is, ∃ t, i.trigger = some (Spec.name t)) :
    ∀ (es : List Event) (s : State) (ts : List Tip), run c (some is) s es = .ok ts →
      ts = [] ∨ ∃ x, ts = [x] ∧ ∃ i ∈ is, ∃ e ∈ es, ∃ t, Spec.asks e = some t ∧ Spec.Is i t x
  | [], _, ts, h => by cases h; exact .inl rfl
  | e :: r, s, ts, h => by
    rw [run] at h
    have rest : ∀ s', (run c (some is) s' r).bind (fun ts => .ok ([] ++ ts)) = .ok ts →
        ts = [] ∨ ∃ x, ts = [x] ∧ ∃ i ∈ is, ∃ e' ∈ e :: r, ∃ t, Spec.asks e' = some t ∧
          Spec.Is i t x := by
      intro s' h
      cases hr : run c (some is) s' r with
      | ok ts' =>
        rw [hr, bind_ok] at h
        cases h
        rcases once_fits c is hg r s' ts' hr with rfl | ⟨x, rfl, i, hi, e', he', h⟩
        · exact .inl rfl
        · exact .inr ⟨x, rfl, i, hi, e', List.mem_cons_of_mem _ he', h⟩
      | panic => rw [hr] at h; cases h
      | ub => rw [hr] at h; cases h
    rcases step_cases c (some is) s e with ⟨w, _, he⟩ | ⟨_, _, _, _, t, n, ha, he⟩
    · rw [he, bind_ok] at h
      exact rest _ h
    · rw [he] at h
      rcases pick_cases (some is) s t n with hp | hp | ⟨x, is', i, hp, hf, hi, ht, hm, hu⟩
      · rw [hp, bind_ok] at h; exact rest _ h
      · rw [hp] at h; cases h
      · rw [hp, bind_ok, run_silent c (some is) r _ (.inr (.inr (.inl rfl)))] at h
        cases h
        cases hf
        obtain ⟨t', ht'⟩ := hg i hi
        have : t' = t := by
          rw [← ht, fact, ht']; exact (mapName_name t').symm
        subst this
        exact .inr ⟨x, rfl, i, hi, e, List.mem_cons_self, t', ha, ht', hm, hu⟩

/-- A file in which every element has a message does no harm, whatever happens. -/
theorem safe_partial (c : Config) (file : Option (List Item))
    (hg : ∀ is, file = some is → ∀ i ∈ is, ∃ m, i.message = some m) :
    ∀ (es : List Event) (s : State), ∃ ts, run c file s es = .ok ts
  | [], _ => ⟨[], rfl⟩
  | e :: r, s => by
    have key : ∀ x : State × List Tip, step c file s e = .ok x →
        ∃ ts, run c file s (e :: r) = .ok ts := by
      intro x hx
      obtain ⟨ts, hts⟩ := safe_partial c file hg r x.1
      exact ⟨x.2 ++ ts, by rw [run, hx, bind_ok, hts, bind_ok]⟩
    rcases step_cases c file s e with ⟨w, _, he⟩ | ⟨_, _, _, _, t, n, _, he⟩
    · exact key _ he
    · rcases pick_cases file s t n with hp | hp | ⟨x, is, i, hp, _⟩
      · exact key _ (he.trans hp)
      · exfalso
        unfold pick at hp
        cases hf : file with
        | none => rw [hf] at hp; cases hp
        | some is =>
          rw [hf] at hp
          dsimp only at hp
          rw [matching_filter t 10 _ (by decide)] at hp
          split at hp
          · cases hp
          · rename_i f hfm
            have hm := List.mem_of_mem_take (List.mem_of_getElem? hfm)
            rw [List.mem_filter, List.mem_map] at hm
            obtain ⟨⟨i, hi, rfl⟩, _⟩ := hm
            obtain ⟨m, hm⟩ := hg is hf i hi
            have : (fact i).message = some m := hm
            rw [this] at hp
            cases hp
      · exact key _ (he.trans hp)

/-- A file that is as it is meant to be. -/
def tips : List Item :=
  [⟨some "TRIGGER_GOTO", some "goto", none⟩, ⟨some "TRIGGER_GLOBAL", some "hello", some "u"⟩]

example : Spec.Good tips := by
  intro i hi
  simp only [tips, List.mem_cons, List.not_mem_nil, or_false] at hi
  rcases hi with rfl | rfl
  · exact ⟨⟨.goto, rfl⟩, _, rfl⟩
  · exact ⟨⟨.global, rfl⟩, _, rfl⟩

example : run ⟨false, false⟩ (some tips) start [.at .goto 10 0, .at .goto 9 5, .finish true 0 0] =
    .ok [⟨"goto", none⟩] := by decide +kernel

example : run ⟨false, false⟩ (some tips) start [.at .asm 0 0, .finish true 0 0] =
    .ok [⟨"hello", some "u"⟩] := by decide +kernel

/-! ## Which tips can come up -/

theorem filter_map_fact (is : List Item) (t : Trigger)
    (hg : ∀ i ∈ is, ∃ t, i.trigger = some (Spec.name t)) :
    (is.map fact).filter (fun f => f.trigger = t) =
      (is.filter (fun i => i.trigger = some (Spec.name t))).map fact := by
  induction is with
  | nil => rfl
  | cons i r ih =>
    obtain ⟨t', ht'⟩ := hg i List.mem_cons_self
    have e : (fact i).trigger = t' := by rw [fact, ht']; exact mapName_name t'
    have ih := ih (fun j hj => hg j (List.mem_cons_of_mem _ hj))
    by_cases h : t' = t
    · subst h
      rw [List.map_cons, List.filter_cons_of_pos (by simpa using e),
        List.filter_cons_of_pos (by simpa using ht'), List.map_cons, ih]
    · rw [List.map_cons, List.filter_cons_of_neg (by simpa [e] using h),
        List.filter_cons_of_neg (by
          simp only [ht', Option.some.injEq, decide_eq_true_eq]
          exact fun hn => h (name_inj _ _ hn)), ih]

/-- For a file as it is meant to be: what can come up for a construct, over all numbers of `rand`, is
exactly the first ten of its tips. -/
theorem shown_iff (is : List Item) (hg : Spec.Good is) (t : Trigger) (x : Tip) :
    (∃ r1 r2, run ⟨false, false⟩ (some is) start [.at t r1 r2] = .ok [x]) ↔
      ∃ i ∈ (is.filter (fun i => i.trigger = some (Spec.name t))).take 10, Spec.Is i t x := by
  have hm : matching t 10 (is.map fact) =
      ((is.filter (fun i => i.trigger = some (Spec.name t))).take 10).map fact := by
    rw [matching_filter t 10 _ (by decide), filter_map_fact is t (fun i hi => (hg i hi).1),
      List.map_take]
  have hall : ∀ i ∈ (is.filter (fun i => i.trigger = some (Spec.name t))).take 10,
      i.trigger = some (Spec.name t) ∧ ∃ m, i.message = some m := by
    intro i hi
    have := List.mem_filter.1 (List.mem_of_mem_take hi)
    exact ⟨by simpa using this.2, (hg i this.1).2⟩
  generalize (is.filter (fun i => i.trigger = some (Spec.name t))).take 10 = L at hm hall
  have runp : ∀ r1 r2, r1 % 100 < 10 → run ⟨false, false⟩ (some is) start [.at t r1 r2] =
      (pick (some is) start t r2).bind (fun y => .ok y.2) := by
    intro r1 r2 h
    have : step ⟨false, false⟩ (some is) start (.at t r1 r2) = pick (some is) start t r2 := by
      simp [step, start, Nat.not_le.2 h]
    rw [run, this]
    cases pick (some is) start t r2 <;> simp [Res.bind, run]
  constructor
  · rintro ⟨r1, r2, h⟩
    by_cases hr : r1 % 100 < 10
    · rw [runp r1 r2 hr] at h
      unfold pick at h
      dsimp only at h
      rw [hm] at h
      split at h
      · cases h
      · rename_i f hf
        obtain ⟨i, hi, rfl⟩ := List.mem_map.1 (List.mem_of_getElem? hf)
        obtain ⟨h1, m, h2⟩ := hall i hi
        have e : (fact i).message = some m := h2
        rw [e] at h
        cases h
        exact ⟨i, hi, h1, h2, rfl⟩
    · exfalso
      have : step ⟨false, false⟩ (some is) start (.at t r1 r2) = .ok (start, []) := by
        simp [step, start, Nat.not_lt.1 hr]
      rw [run, this] at h
      cases h
  · rintro ⟨i, hi, h1, h2, h3⟩
    obtain ⟨k, hk⟩ := List.getElem?_of_mem hi
    have hlt : k < L.length := (List.getElem?_eq_some_iff.1 hk).1
    refine ⟨0, k, ?_⟩
    rw [runp 0 k (by decide)]
    have e : (L.map fact)[k % (L.map fact).length]? = some (fact i) := by
      rw [List.length_map, Nat.mod_eq_of_lt hlt, List.getElem?_map, hk]; rfl
    have em : (fact i).message = some x.message := h2
    have eu : (fact i).url = x.url := h3
    unfold pick
    dsimp only
    rw [hm, e]
    dsimp only
    rw [em]
    dsimp only
    rw [eu]
    rfl

/-! ## Where the claim fails -/

/-- The eleventh tip for a construct never comes up, whatever `rand` gives.  The file that is shipped has
57 tips for the end of a compilation. -/
theorem eleventh_violated (is : List Item) (hg : Spec.Good is) (t : Trigger) (pre post : List Item)
    (i : Item) (x : Tip)
    (hs : is.filter (fun i => i.trigger = some (Spec.name t)) = pre ++ i :: post)
    (hp : 10 ≤ pre.length) (hx : Spec.Is i t x) (hn : ∀ j ∈ pre, j.message ≠ i.message) :
    (∃ i ∈ is, Spec.Is i t x) ∧
    ∀ r1 r2, run ⟨false, false⟩ (some is) start [.at t r1 r2] ≠ .ok [x] := by
  constructor
  · refine ⟨i, ?_, hx⟩
    have : i ∈ is.filter (fun i => i.trigger = some (Spec.name t)) := by rw [hs]; simp
    exact (List.mem_filter.1 this).1
  · intro r1 r2 h
    obtain ⟨j, hj, hjx⟩ := (shown_iff is hg t x).1 ⟨r1, r2, h⟩
    rw [hs, List.take_append_of_le_length hp] at hj
    exact hn j (List.mem_of_mem_take hj) (hjx.2.1.trans hx.2.1.symm)

/-- The end of a compilation at a terminal is such a construct, so that `shown_iff` and
`eleventh_violated` hold for it; without a terminal it has no tip. -/
theorem finish_same (c : Config) (file : Option (List Item)) (s : State) (r1 r2 : Nat) :
    run c file s [.finish true r1 r2] = run c file s [.at .global r1 r2] ∧
    run c file s [.finish false r1 r2] = .ok [] := by
  constructor
  · simp [run, step]
  · rw [run, step]; split <;> rfl

/-- Eleven tips. -/
def eleven : List Item :=
  (List.replicate 10 ⟨some "TRIGGER_ASM", some "a", none⟩) ++ [⟨some "TRIGGER_ASM", some "b", none⟩]

example : Spec.Good eleven := by
  intro i hi
  simp only [eleven, List.mem_append, List.mem_replicate, List.mem_singleton] at hi
  rcases hi with ⟨_, rfl⟩ | rfl
  · exact ⟨⟨.asm, rfl⟩, _, rfl⟩
  · exact ⟨⟨.asm, rfl⟩, _, rfl⟩

example : eleven.filter (fun i => i.trigger = some (Spec.name .asm)) =
      List.replicate 10 ⟨some "TRIGGER_ASM", some "a", none⟩ ++
        ⟨some "TRIGGER_ASM", some "b", none⟩ :: [] ∧
    Spec.Is ⟨some "TRIGGER_ASM", some "b", none⟩ .asm ⟨"b", none⟩ :=
  ⟨by decide +kernel, rfl, rfl, rfl⟩

/-- A `facts.json` that happens to be in the current directory is taken: one whose elements have neither
of the members makes every `goto` a null pointer given to `%s`. -/
theorem message_violated (is : List Item) (r1 r2 : Nat) (h : r1 % 100 < 10) (hne : is ≠ [])
    (hi : ∀ i ∈ is, i.trigger = none ∧ i.message = none) :
    run ⟨false, false⟩ (some is) start [.at .goto r1 r2] = .ub := by
  have hstep : step ⟨false, false⟩ (some is) start (.at .goto r1 r2) =
      pick (some is) start .goto r2 := by simp [step, start, Nat.not_le.2 h]
  have hub : pick (some is) start .goto r2 = .ub := by
    unfold pick
    dsimp only
    rw [matching_filter .goto 10 _ (by decide)]
    have hf : (is.map fact).filter (fun f => f.trigger = .goto) = is.map fact := by
      rw [List.filter_eq_self]
      intro f hf
      obtain ⟨i, h1, rfl⟩ := List.mem_map.1 hf
      simp [fact, (hi i h1).1]
    rw [hf]
    have hpos : 0 < ((is.map fact).take 10).length := by
      have := List.length_pos_iff.2 hne
      rw [List.length_take, List.length_map]; omega
    rw [List.getElem?_eq_getElem (Nat.mod_lt _ hpos)]
    have hm := List.mem_of_mem_take (List.getElem_mem (Nat.mod_lt r2 hpos))
    obtain ⟨i, h1, h2⟩ := List.mem_map.1 hm
    dsimp only
    rw [← h2]
    have : (fact i).message = none := (hi i h1).2
    rw [this]
  rw [run, hstep, hub]; rfl

end Verif.ZenTip
