import Verif.LspStale.Model

/-!
# Texts the language server has dropped: theorems
-/

namespace Verif.LspStale
open Verif
open Spec

/-- what the context holds after the texts `pre` -/
structure Inv (pre : List Text) (s : State) : Prop where
  known : ∀ n, n ∈ s.known ↔ ∃ t ∈ pre, Item.decl n ∈ t
  pend : ∀ n, (∃ g, (g, n) ∈ s.pending) ↔ ∃ t ∈ pre, Item.use n ∈ t
  old : ∀ x ∈ s.pending, x.1 < s.msg

theorem inv_start : Inv [] start := ⟨by simp [start], by simp [start], by simp [start]⟩

theorem parse_spec (s : State) (t : Text) :
    (parse s t).msg = s.msg ∧
    (∀ n, n ∈ (parse s t).known ↔ n ∈ s.known ∨ Item.decl n ∈ t) ∧
    (∀ g n, (g, n) ∈ (parse s t).pending ↔ (g, n) ∈ s.pending ∨ g = s.msg ∧ Item.use n ∈ t) := by
  induction t generalizing s with
  | nil => simp [parse]
  | cons i t ih =>
    cases i with
    | use m =>
      obtain ⟨h1, h2, h3⟩ := ih { s with pending := (s.msg, m) :: s.pending }
      simp only [parse]
      refine ⟨h1, fun n => by simp [h2], fun g n => ?_⟩
      rw [h3]
      simp only [List.mem_cons, Prod.mk.injEq, Item.use.injEq]
      constructor
      · rintro ((⟨rfl, rfl⟩ | h) | h)
        · exact .inr ⟨rfl, .inl rfl⟩
        · exact .inl h
        · exact .inr ⟨h.1, .inr h.2⟩
      · rintro (h | ⟨rfl, rfl | h⟩)
        · exact .inl (.inr h)
        · exact .inl (.inl ⟨rfl, rfl⟩)
        · exact .inr ⟨rfl, h⟩
    | decl m =>
      obtain ⟨h1, h2, h3⟩ := ih { s with known := m :: s.known }
      simp only [parse]
      refine ⟨h1, fun n => ?_, fun g n => by simp [h3]⟩
      rw [h2]
      simp only [List.mem_cons, Item.decl.injEq]
      constructor
      · rintro ((h | h) | h)
        · exact .inr (.inl h)
        · exact .inl h
        · exact .inr (.inr h)
      · rintro (h | h | h)
        · exact .inl (.inr h)
        · exact .inl (.inl h)
        · exact .inr h

theorem validate_spec (known : List String) (msg : Nat) (l : List (Nat × String)) :
    (validate known msg l = .ub ∧ ∃ x ∈ l, x.2 ∉ known ∧ x.1 ≠ msg) ∨
    (∃ w, validate known msg l = .ok w ∧ (∀ x ∈ l, x.2 ∉ known → x.1 = msg) ∧
      ∀ n, n ∈ w ↔ n ∉ known ∧ (msg, n) ∈ l) := by
  induction l with
  | nil => exact .inr ⟨[], rfl, by simp, by simp⟩
  | cons x l ih =>
    obtain ⟨g, m⟩ := x
    by_cases hk : m ∈ known
    · rcases ih with ⟨h1, x, hx, h2⟩ | ⟨w, h1, h2, h3⟩
      · exact .inl ⟨by simp [validate, hk, h1], x, by simp [hx], h2⟩
      · refine .inr ⟨w, by simp [validate, hk, h1], ?_, fun n => ?_⟩
        · intro x hx hn
          rcases List.mem_cons.1 hx with rfl | hx
          · exact absurd hk hn
          · exact h2 x hx hn
        · rw [h3]
          simp only [List.mem_cons, Prod.mk.injEq]
          constructor
          · rintro ⟨a, b⟩; exact ⟨a, .inr b⟩
          · rintro ⟨a, ⟨_, rfl⟩ | b⟩
            · exact absurd hk a
            · exact ⟨a, b⟩
    · by_cases hg : g = msg
      · subst hg
        rcases ih with ⟨h1, x, hx, h2⟩ | ⟨w, h1, h2, h3⟩
        · exact .inl ⟨by simp [validate, hk, h1, Res.bind], x, by simp [hx], h2⟩
        · refine .inr ⟨m :: w, by simp [validate, hk, h1, Res.bind], ?_, fun n => ?_⟩
          · intro x hx hn
            rcases List.mem_cons.1 hx with rfl | hx
            · rfl
            · exact h2 x hx hn
          · simp only [List.mem_cons, h3, Prod.mk.injEq, true_and]
            constructor
            · rintro (rfl | h)
              · exact ⟨hk, .inl rfl⟩
              · exact ⟨h.1, .inr h.2⟩
            · rintro ⟨a, rfl | b⟩
              · exact .inl rfl
              · exact .inr ⟨a, b⟩
      · exact .inl ⟨by simp [validate, hk, hg], (g, m), by simp, hk, hg⟩

/-- one message: either memory that was released is read, exactly if an old use is still undeclared, or
the warnings are those for the uses of the text itself -/
theorem update_spec (pre : List Text) (s : State) (hi : Inv pre s) (t : Text) :
    (update s t = .ub ∧ Stale pre t) ∨
    (∃ s' w, update s t = .ok (s', w) ∧ ¬ Stale pre t ∧ Inv (pre ++ [t]) s' ∧
      ∀ n, n ∈ w ↔ Item.use n ∈ t ∧ Undeclared (pre ++ [t]) n) := by
  obtain ⟨p1, p2, p3⟩ := parse_spec s t
  have hkn : ∀ n, n ∉ (parse s t).known ↔ Undeclared (pre ++ [t]) n := by
    intro n
    rw [p2, hi.known]
    unfold Undeclared
    constructor
    · intro h u hu hd
      rcases List.mem_append.1 hu with hu | hu
      · exact h (.inl ⟨u, hu, hd⟩)
      · simp only [List.mem_singleton] at hu
        subst hu
        exact h (.inr hd)
    · rintro h (⟨u, hu, hd⟩ | hd)
      · exact h u (by simp [hu]) hd
      · exact h t (by simp) hd
  rcases validate_spec (parse s t).known (parse s t).msg (parse s t).pending with
    ⟨h1, ⟨g, n⟩, hx, hn, hg⟩ | ⟨w, h1, h2, h3⟩
  · refine .inl ⟨by unfold update; rw [h1]; rfl, n, ?_, (hkn n).1 hn⟩
    rcases (p3 g n).1 hx with h | h
    · exact (hi.pend n).1 ⟨g, h⟩
    · exact absurd (h.1.trans p1.symm) hg
  · refine .inr ⟨_, w, by unfold update; rw [h1]; rfl, ?_, ⟨?_, ?_, ?_⟩, ?_⟩
    · rintro ⟨n, hu, hd⟩
      obtain ⟨g, hgn⟩ := (hi.pend n).2 hu
      have := h2 (g, n) ((p3 g n).2 (.inl hgn)) ((hkn n).2 hd)
      have ho := hi.old _ hgn
      simp only at this ho
      omega
    · intro n
      show n ∈ (parse s t).known ↔ _
      rw [p2, hi.known]
      simp [or_and_right, exists_or]
    · intro n
      show (∃ g, (g, n) ∈ (parse s t).pending) ↔ _
      constructor
      · rintro ⟨g, hg⟩
        rcases (p3 g n).1 hg with h | h
        · obtain ⟨u, hu, h⟩ := (hi.pend n).1 ⟨g, h⟩
          exact ⟨u, by simp [hu], h⟩
        · exact ⟨t, by simp, h.2⟩
      · rintro ⟨u, hu, h⟩
        rcases List.mem_append.1 hu with hu | hu
        · obtain ⟨g, hg⟩ := (hi.pend n).2 ⟨u, hu, h⟩
          exact ⟨g, (p3 g n).2 (.inl hg)⟩
        · simp only [List.mem_singleton] at hu
          subst hu
          exact ⟨s.msg, (p3 s.msg n).2 (.inr ⟨rfl, h⟩)⟩
    · rintro ⟨g, n⟩ hx
      show g < (parse s t).msg + 1
      rcases (p3 g n).1 hx with h | h
      · have := hi.old _ h
        simp only at this
        omega
      · omega
    · intro n
      rw [h3, hkn, p3, p1]
      constructor
      · rintro ⟨a, h | h⟩
        · have := hi.old _ h
          simp at this
        · exact ⟨h.2, a⟩
      · rintro ⟨a, b⟩
        exact ⟨b, .inr ⟨rfl, a⟩⟩

theorem run_from (post : List Text) : ∀ (pre : List Text) (s : State), Inv pre s →
    (run s post = .ub ↔ ∃ a t b, post = a ++ t :: b ∧ Stale (pre ++ a) t) := by
  induction post with
  | nil => intro pre s _; simp [run]
  | cons t r ih =>
    intro pre s hi
    rcases update_spec pre s hi t with ⟨h1, h2⟩ | ⟨s', w, h1, h2, h3, _⟩
    · refine ⟨fun _ => ⟨[], t, r, rfl, by simpa using h2⟩, fun _ => by simp [run, h1, Res.bind]⟩
    · have hrun : run s (t :: r) = .ub ↔ run s' r = .ub := by
        simp only [run, h1, Res.bind]
        cases run s' r <;> simp
      rw [hrun, ih (pre ++ [t]) s' h3]
      constructor
      · rintro ⟨a, u, b, rfl, h⟩
        exact ⟨t :: a, u, b, rfl, by simpa using h⟩
      · rintro ⟨a, u, b, he, h⟩
        cases a with
        | nil =>
          simp only [List.nil_append, List.cons.injEq] at he
          obtain ⟨rfl, rfl⟩ := he
          exact absurd (by simpa using h) h2
        | cons a0 a =>
          simp only [List.cons_append, List.cons.injEq] at he
          obtain ⟨rfl, rfl⟩ := he
          exact ⟨a, u, b, rfl, by simpa using h⟩

/-- C195, exactly: in a session the server reads memory it has released if and only if at some message
an earlier text had used a type that no text so far has declared. -/
theorem released_iff (msgs : List Text) :
    run start msgs = .ub ↔ ∃ a t b, msgs = a ++ t :: b ∧ Stale a t := by
  simpa using run_from msgs [] start inv_start

theorem run_cases (post : List Text) : ∀ (pre : List Text) (s : State), Inv pre s →
    run s post = .ub ∨ ∃ ws, run s post = .ok ws ∧ ws.length = post.length ∧
      ∀ a t b, post = a ++ t :: b → ∃ w, ws[a.length]? = some w ∧
        ∀ n, n ∈ w ↔ Item.use n ∈ t ∧ Undeclared (pre ++ a ++ [t]) n := by
  induction post with
  | nil => intro pre s _; exact .inr ⟨[], rfl, rfl, by simp⟩
  | cons t r ih =>
    intro pre s hi
    rcases update_spec pre s hi t with ⟨h1, _⟩ | ⟨s', w, h1, _, h3, h4⟩
    · exact .inl (by simp [run, h1, Res.bind])
    · rcases ih (pre ++ [t]) s' h3 with h | ⟨ws, h5, h6, h7⟩
      · exact .inl (by simp [run, h1, Res.bind, h])
      · refine .inr ⟨w :: ws, by simp [run, h1, Res.bind, h5], by simp [h6], ?_⟩
        intro a u b he
        cases a with
        | nil =>
          simp only [List.nil_append, List.cons.injEq] at he
          obtain ⟨rfl, rfl⟩ := he
          exact ⟨w, by simp, by simpa using h4⟩
        | cons a0 a =>
          simp only [List.cons_append, List.cons.injEq] at he
          obtain ⟨rfl, rfl⟩ := he
          obtain ⟨w', hw, hn⟩ := h7 a u b rfl
          exact ⟨w', by simpa using hw, by simpa using hn⟩

/-- C195: if every type that a text uses is declared in it or before, no released memory is read in the
whole session, and there is no warning.  Missing: texts with a type that is not declared. -/
theorem declared_partial (msgs : List Text)
    (h : ∀ a t b, msgs = a ++ t :: b → ∀ n, Item.use n ∈ t → ∃ u ∈ a ++ [t], Item.decl n ∈ u) :
    ∃ ws, run start msgs = .ok ws ∧ ws.length = msgs.length ∧ ∀ w ∈ ws, w = [] := by
  rcases run_cases msgs [] start inv_start with hu | ⟨ws, h1, h2, h3⟩
  · exfalso
    obtain ⟨a, t, b, rfl, n, ⟨u, hua, huse⟩, hund⟩ := (released_iff msgs).1 hu
    obtain ⟨c, d, rfl⟩ := List.append_of_mem hua
    obtain ⟨v, hv, hd⟩ := h c u (d ++ t :: b) (by simp) n huse
    refine hund v ?_ hd
    simp only [List.mem_append, List.mem_singleton] at hv
    rcases hv with hv | rfl
    · simp [hv]
    · simp
  · refine ⟨ws, h1, h2, fun w hw => ?_⟩
    obtain ⟨i, hi, rfl⟩ := List.mem_iff_getElem.1 hw
    have hi' : i < msgs.length := h2 ▸ hi
    have he : msgs = msgs.take i ++ msgs[i] :: msgs.drop (i + 1) := by simp
    obtain ⟨w, hw', hn⟩ := h3 _ _ _ he
    have hl : (msgs.take i).length = i := by rw [List.length_take]; omega
    rw [hl, List.getElem?_eq_getElem hi] at hw'
    obtain rfl := Option.some.inj hw'
    refine List.eq_nil_iff_forall_not_mem.2 fun n hmem => ?_
    obtain ⟨hu, hd⟩ := (hn n).1 hmem
    obtain ⟨v, hv, hvd⟩ := h _ _ _ he n hu
    exact hd v (by simpa using hv) hvd

/-- a text that declares what it uses, then one that uses it again -/
example : ∃ ws, run start [[.use "P", .decl "P"], [.use "P"]] = .ok ws ∧ ws.length = 2 ∧ ∀ w ∈ ws, w = [] :=
  ⟨[[], []], by decide +kernel, rfl, by simp⟩

/-- C195 fails: after a text with a type that is not declared (one of a C header, or a name that is
misspelt) the next message, whatever its text is, makes the server read released memory, unless it
declares the type. -/
theorem edit_violated (t u : Text) (n : String) (rest : List Text) (hu : Item.use n ∈ t)
    (h1 : Item.decl n ∉ t) (h2 : Item.decl n ∉ u) : run start (t :: u :: rest) = .ub := by
  refine (released_iff _).2 ⟨[t], u, rest, rfl, n, ⟨t, by simp, hu⟩, ?_⟩
  intro v hv
  simp only [List.cons_append, List.nil_append, List.mem_cons, List.not_mem_nil, or_false] at hv
  rcases hv with rfl | rfl
  · exact h1
  · exact h2

/-- `let x: Pont;` is corrected to `let x: Point;` -/
example : run start [[.decl "Point", .use "Pont"], [.decl "Point", .use "Point"]] = .ub :=
  edit_violated _ _ "Pont" [] (by decide) (by decide) (by decide)

/-- C195 fails: a declaration that is taken out stays known, the use of it is not warned about. -/
theorem removed_violated (n : String) :
    run start [[.decl n], [.use n]] = .ok [[], []] := by
  simp [run, update, start, parse, validate, Res.bind]

end Verif.LspStale
