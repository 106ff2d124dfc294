import Verif.Repl.Lemmas

/-!
# What holds of a session of the REPL

C118 entries one after the other, C119 the program that is run, C120 the memory of the program text,
C121 the history file and `:save`, C122 the commands and the end of the input.
-/

namespace Verif.Repl

open Spec

/-! ## C118: the entries of a session -/

theorem line_entry (E : Env) {t : Str} (ht : Entry t) {s : St} (hb : s.buf = none)
    (h0 : s.brace = 0 ∧ s.paren = 0) :
    line E (some t) s = (do
      let s' ← eval E t s
      let s'' ← finish s'
      Res.ok (Next.go s'')) := by
  have htake : t.take 1022 = t := List.take_of_length_le ht.short
  obtain ⟨b, hs, hB⟩ := trimEnd_split t
  have c1 : ¬ (trimEnd t = "exit".toList ∨ trimEnd t = "quit".toList) := by
    rintro (h | h)
    · exact (ht.exit b hB).1 (by rw [← h]; exact hs)
    · exact (ht.exit b hB).2 (by rw [← h]; exact hs)
  have c2 : ¬ (trimEnd t).head? = some '!' := fun h => ht.shell (trimEnd_head h)
  have c3 : ¬ (trimEnd t).head? = some ':' := fun h => ht.colon (trimEnd_head h)
  have hcode : codeLine E (t ++ ['\n']) s = (do
      let s' ← eval E t s
      finish s') := by
    obtain ⟨ps, rfl, hp, ho⟩ := ht.pieces
    have he : ({ s with brace := 0, paren := 0 } : St) = s := by
      obtain ⟨a, b⟩ := h0
      cases s
      simp only at a b
      subst a b
      rfl
    unfold codeLine
    rw [h0.1, h0.2, scanLine_pieces ps hp]
    simp only
    have hi : (if (text ps ++ ['\n']).getLast? = some '\n' then (text ps ++ ['\n']).dropLast
        else text ps ++ ['\n']) = text ps := by
      rw [if_pos (by simp), List.dropLast_concat]
    rw [if_neg (by exact ho), hi, if_neg ht.some, he]
  unfold line
  simp only [htake]
  rw [if_pos hb, if_neg c1, if_neg c2, if_neg c3, hcode]
  cases eval E t s <;> rfl

/-- The first entry of a session: the program made of the history and the entry is run, once; the
entry is kept if it ran; the history is written to its file, and its memory is given back. -/
theorem first_entry (E : Env) (h : List Str) {t p : Str} (ht : Entry t)
    (hp : program E [] h t = .ok p) :
    line E (some t) (St.new h) = .ok (.go
      { St.new (if E.run p then h ++ [t] else h) with
        live := false
        ran := [p]
        file := some (saveLines (if E.run p then h ++ [t] else h)) }) := by
  rw [line_entry E ht rfl ⟨rfl, rfl⟩]
  simp [eval, St.new, hp, finish]

/-- C118, violated: the session does not survive its first entry.  Whatever is entered next is stored
into memory that has been given back. -/
theorem second_entry_violated (E : Env) {h : List Str} (hh : LineEdit.NoNul h) {t u p : Str}
    (ht : Entry t) (hu : Entry u) (hp : program E [] h t = .ok p)
    (ct : ∀ c ∈ t, 32 ≤ c.toNat ∧ c.toNat ≠ 127) (cu : ∀ c ∈ u, 32 ≤ c.toNat ∧ c.toNat ≠ 127)
    (rest : Str) :
    rounds E 2 (St.new h) (t ++ '\r' :: (u ++ '\r' :: rest)) = .ub := by
  have hz : (0 : Int).toNat = 0 := rfl
  have hh' : LineEdit.NoNul (if E.run p then h ++ [t] else h) := by
    split
    · intro x hx
      rcases List.mem_append.mp hx with hx | hx
      · exact hh x hx
      · rw [List.mem_singleton.mp hx]
        intro h0
        exact absurd (ct _ h0).1 (by decide)
    · exact hh
  have r1 : round E (St.new h) (t ++ '\r' :: (u ++ '\r' :: rest)) = .ok (.go
      { St.new (if E.run p then h ++ [t] else h) with
        live := false
        ran := [p]
        file := some (saveLines (if E.run p then h ++ [t] else h)) }, u ++ '\r' :: rest) := by
    unfold round
    have : (St.new h).brace.toNat = 0 := rfl
    rw [this]
    have : (St.new h).hist = h := rfl
    rw [this, LineEdit.typed_line h hh t ct]
    simp only [Res.ok_bind]
    rw [first_entry E h ht hp]
    rfl
  unfold rounds
  rw [r1]
  simp only [Res.ok_bind]
  unfold rounds
  unfold round
  simp only [St.new, hz]
  rw [LineEdit.typed_line _ hh' u cu]
  simp only [Res.ok_bind]
  rw [line_entry E hu rfl ⟨rfl, rfl⟩]
  simp [eval]

theorem bind_okE {α β : Type} {x : Res α} {f : α → Res β} {b : β} (h : (x >>= f) = .ok b) :
    ∃ a, x = .ok a ∧ f a = .ok b := by
  cases x with
  | ok a => exact ⟨a, rfl, h⟩
  | panic => exact absurd h (by simp)
  | ub => exact absurd h (by simp)

/-- What stays as it is through a command. -/
theorem reads_ok {s s' : St} {x : Res St} (h : reads s x = .ok s') : x = .ok s' := by
  unfold reads at h
  split at h
  · exact h
  · exact absurd h (by simp)

/-- Commands neither run entries nor write the history file. -/
def Same (s s' : St) : Prop :=
  s'.live = s.live ∧ s'.ran = s.ran ∧ s'.file = s.file ∧ s'.buf = s.buf ∧ s'.brace = s.brace ∧
    s'.paren = s.paren

theorem Same.refl (s : St) : Same s s := ⟨rfl, rfl, rfl, rfl, rfl, rfl⟩

theorem editPush_same {E : Env} {t : Str} {s s' : St} (h : editPush E t s = .ok s') : Same s s' := by
  unfold editPush at h
  split at h
  · split at h
    · injection h with h; subst h; exact Same.refl s
    · unfold push at h
      split at h
      · injection h with h; subst h; exact Same.refl s
      · exact absurd h (by simp)
  · injection h with h; subst h; exact Same.refl s

theorem editCmd_same {E : Env} {cmd : Str} {s s' : St} (h : editCmd E cmd s = .ok s') : Same s s' := by
  unfold editCmd at h
  split at h
  · split at h
    · exact editPush_same h
    · injection h with h; subst h; exact Same.refl s
  · simp only at h
    generalize (if cmd.length > 6 then atoi (cmd.drop 6) - 1 else (s.hist.length : Int) - 1) = i at h
    split at h
    · exact editPush_same (reads_ok h)
    · injection h with h; subst h; exact Same.refl s

theorem go_ok {x : Res St} {o : Out} (h : (do .ok (.go (← x)) : Res Out) = .ok o) :
    ∃ s', x = .ok s' ∧ o = .go s' := by
  cases x with
  | ok s' => exact ⟨s', rfl, by simpa using h.symm⟩
  | panic => simp at h
  | ub => simp at h

theorem command_same {E : Env} {cmd : Str} {s s' : St} (h : command E cmd s = .ok (.go s')) :
    Same s s' := by
  have key : ∀ {x : Res St}, (do .ok (.go (← x)) : Res Out) = .ok (.go s') → x = .ok s' := by
    intro x hx
    obtain ⟨y, h1, h2⟩ := go_ok hx
    injection h2 with h2
    rw [h2]; exact h1
  unfold command at h
  simp only at h
  split at h
  · injection h with h; injection h with h; subst h; exact Same.refl s
  split at h
  · have := reads_ok (key h); injection this with h; subst h; exact Same.refl s
  split at h
  · injection h with h; exact absurd h (by simp)
  split at h
  · have := reads_ok (key h); injection this with h; subst h; exact Same.refl s
  split at h
  · have h := key h
    unfold deleteCmd at h
    simp only at h
    split at h
    · have := reads_ok h; injection this with h; subst h; exact Same.refl s
    · injection h with h; subst h; exact Same.refl s
  split at h
  · exact editCmd_same (key h)
  split at h
  · injection h with h; injection h with h; subst h
    unfold watchCmd
    simp only
    split <;> exact Same.refl s
  split at h
  · injection h with h; injection h with h; subst h
    unfold unwatchCmd
    simp only
    split <;> exact Same.refl s
  split at h
  · have h := key h
    unfold loadCmd at h
    split at h
    · split at h
      · injection h with h; subst h; exact Same.refl s
      · split at h
        · injection h with h; subst h; exact Same.refl s
        · exact absurd h (by simp)
    · injection h with h; subst h; exact Same.refl s
  split at h
  · have := reads_ok (key h); injection this with h; subst h; exact Same.refl s
  · injection h with h; exact absurd h (by simp)

/-- The state of a session that has gone on without a memory error: before its end of life nothing has
been run or written; after it, one program at most has been run. -/
def Inv (s : St) : Prop :=
  (s.live = true ∧ s.file = none ∧ s.ran = []) ∨
    (s.live = false ∧ s.ran.length ≤ 1 ∧ (s.ran ≠ [] ∨ s.buf ≠ none))

theorem Inv.of_same {s s' : St} (h : Same s s') (hi : Inv s) : Inv s' := by
  obtain ⟨h1, h2, h3, h4, -⟩ := h
  unfold Inv at *
  rw [h1, h2, h3, h4]
  exact hi

/-- The state of a `Next`. -/
def Next.st : Next → St
  | .go s => s
  | .quit s => s

theorem eval_ok {E : Env} {t : Str} {s s' : St} (h : eval E t s = .ok s') :
    s.live = true ∧ ∃ p, program E s.watches s.hist t = .ok p ∧
      s' = { s with hist := if E.run p then s.hist ++ [t] else s.hist, ran := s.ran ++ [p] } := by
  unfold eval at h
  split at h
  · rename_i hl
    cases hp : program E s.watches s.hist t with
    | ok p =>
      rw [hp] at h
      simp only [Res.ok_bind] at h
      injection h with h
      exact ⟨hl, p, rfl, h.symm⟩
    | panic => rw [hp] at h; exact absurd h (by simp)
    | ub => rw [hp] at h; exact absurd h (by simp)
  · exact absurd h (by simp)

theorem finish_ok {s s' : St} (h : finish s = .ok s') :
    s.live = true ∧ s' = { s with live := false, file := some (saveLines s.hist) } := by
  unfold finish at h
  split at h
  · rename_i hl
    injection h with h
    exact ⟨hl, h.symm⟩
  · exact absurd h (by simp)

theorem codeLine_inv {E : Env} {lb : Str} {s s' : St} (hi : Inv s)
    (h : codeLine E lb s = .ok s') : Inv s' := by
  unfold codeLine at h
  simp only at h
  split at h
  · injection h with h
    subst h
    rcases hi with ⟨h1, h2, h3⟩ | ⟨h1, h2, h3⟩
    · exact .inl ⟨h1, h2, h3⟩
    · exact .inr ⟨h1, h2, .inr (by simp)⟩
  · generalize (if lb.getLast? = some '\n' then lb.dropLast else lb) = inp at h
    split at h
    · injection h with h
      subst h
      exact hi
    · obtain ⟨s1, he, hf⟩ := bind_okE h
      obtain ⟨hl, p, -, rfl⟩ := eval_ok he
      obtain ⟨-, rfl⟩ := finish_ok hf
      rcases hi with ⟨h1, h2, h3⟩ | ⟨h1, -, -⟩
      · refine .inr ⟨rfl, ?_, .inl ?_⟩
        · simp [h3]
        · simp
      · simp only at hl
        rw [hl] at h1
        exact absurd h1 (by simp)

theorem line_inv {E : Env} {l : Option Str} {s : St} {x : Next} (hi : Inv s)
    (h : line E l s = .ok x) : Inv x.st := by
  unfold line at h
  cases l with
  | none => injection h with h; subst h; exact hi
  | some rl =>
    have code : ∀ {y : Next}, (do .ok (.go (← codeLine E (rl.take 1022 ++ ['\n']) s)) : Res Next)
        = .ok y → Inv y.st := by
      intro y hy
      obtain ⟨s1, h1, h2⟩ := bind_okE hy
      injection h2 with h2
      subst h2
      exact codeLine_inv hi h1
    simp only at h
    split at h
    · split at h
      · injection h with h; subst h; exact hi
      split at h
      · injection h with h; subst h; exact hi
      split at h
      · obtain ⟨o, h1, h2⟩ := bind_okE h
        cases o with
        | go s1 =>
          injection h2 with h2; subst h2
          exact hi.of_same (command_same h1)
        | quit => injection h2 with h2; subst h2; exact hi
        | code => exact code h2
      · exact code h
    · obtain ⟨s1, h1, h2⟩ := bind_okE h
      injection h2 with h2
      subst h2
      obtain ⟨hl, rfl⟩ := finish_ok h1
      rcases hi with ⟨-, -, h3⟩ | ⟨h1, -, -⟩
      · exact .inr ⟨rfl, by simp [Next.st, h3], .inr (by assumption)⟩
      · rw [hl] at h1; exact absurd h1 (by simp)

theorem rounds_inv {E : Env} (n : Nat) {s : St} {input rest : Str} {x : Next} (hi : Inv s)
    (h : rounds E n s input = .ok (x, rest)) : Inv x.st := by
  induction n generalizing s input with
  | zero =>
    rw [rounds] at h
    injection h with h
    injection h with h _
    subst h
    exact hi
  | succ n ih =>
    rw [rounds] at h
    obtain ⟨⟨y, r⟩, h1, h2⟩ := bind_okE h
    unfold round at h1
    obtain ⟨⟨l, r'⟩, -, h4⟩ := bind_okE h1
    obtain ⟨z, h5, h6⟩ := bind_okE h4
    injection h6 with h6
    injection h6 with h6 h7
    subst h6
    have hz := line_inv hi h5
    simp only at h2
    split at h2
    · exact ih hz h2
    · injection h2 with h2
      injection h2 with h2 _
      subst h2
      exact hz

/-- C118, violated, for every session there is: whatever is typed, for as long as nothing goes wrong
with the memory, at most one entry is run. -/
theorem one_entry_violated (E : Env) (h : List Str) (n : Nat) (input rest : Str) (x : Next)
    (hr : rounds E n (St.new h) input = .ok (x, rest)) : x.st.ran.length ≤ 1 := by
  rcases rounds_inv n (.inl ⟨rfl, rfl, rfl⟩) hr with ⟨-, -, h3⟩ | ⟨-, h2, -⟩
  · rw [h3]; exact Nat.zero_le _
  · exact h2

/-- A line whose brackets are open is kept. -/
theorem open_line (E : Env) (ps : List Piece) (hp : ∀ q ∈ ps, q.Ok) (ho : Open ps)
    (hn : (text ps).length ≤ 1022) (c1 : (text ps).head? ≠ some '!') (c2 : (text ps).head? ≠ some ':')
    {s : St} (hb : s.buf = none) (h0 : s.brace = 0 ∧ s.paren = 0) :
    line E (some (text ps)) s = .ok (.go { s with
      buf := some (text ps ++ ['\n'])
      brace := excess '{' '}' ps
      paren := excess '(' ')' ps }) := by
  have htake : (text ps).take 1022 = text ps := List.take_of_length_le hn
  have hw : ∀ (w b : Str), (∀ c ∈ w, c ≠ '{' ∧ c ≠ '(' ∧ c ≠ '"' ∧ c ≠ '\\') → Blanks b →
      text ps ≠ w ++ b := by
    intro w b hwc hB h
    have hc : ∀ c ∈ text ps, c ≠ '{' ∧ c ≠ '(' ∧ c ≠ '"' ∧ c ≠ '\\' := by
      rw [h]
      intro c hc
      rcases List.mem_append.mp hc with hc | hc
      · exact hwc c hc
      · rcases hB c hc with rfl | rfl <;> decide
    have e := scan_code (text ps) 0 0 (fun h => (hc _ h).2.2.1 rfl) (fun h => (hc _ h).2.2.2 rfl)
    rw [scan_pieces ps hp] at e
    injection e with _ _ e1 e2
    have z1 : (text ps).count '{' = 0 := List.count_eq_zero.mpr (fun h => (hc _ h).1 rfl)
    have z2 : (text ps).count '(' = 0 := List.count_eq_zero.mpr (fun h => (hc _ h).2.1 rfl)
    rw [z1] at e1
    rw [z2] at e2
    rcases ho with ho | ho <;> omega
  have k1 : ¬ (trimEnd (text ps) = "exit".toList ∨ trimEnd (text ps) = "quit".toList) := by
    obtain ⟨b, hs, hB⟩ := trimEnd_split (text ps)
    rintro (h | h)
    · exact hw "exit".toList b (by decide) hB (by rw [← h]; exact hs)
    · exact hw "quit".toList b (by decide) hB (by rw [← h]; exact hs)
  unfold line
  simp only [htake]
  rw [if_pos hb, if_neg k1, if_neg (fun h => c1 (trimEnd_head h)),
    if_neg (fun h => c2 (trimEnd_head h))]
  unfold codeLine
  rw [h0.1, h0.2, scanLine_pieces ps hp]
  simp only
  rw [if_pos (by exact ho)]
  rfl

/-- C118, violated: behind an open line, nothing is run any more, whatever follows. -/
theorem open_line_never_runs_violated (E : Env) (n : Nat) {s : St} (hb : s.buf ≠ none)
    {input rest : Str} {x : Next} (h : rounds E n s input = .ok (x, rest)) :
    x.st.ran = s.ran ∧ x.st.hist = s.hist ∧ x.st.buf = s.buf := by
  induction n generalizing s input with
  | zero =>
    rw [rounds] at h
    injection h with h
    injection h with h _
    subst h
    exact ⟨rfl, rfl, rfl⟩
  | succ n ih =>
    rw [rounds] at h
    obtain ⟨⟨y, r⟩, h1, h2⟩ := bind_okE h
    unfold round at h1
    obtain ⟨⟨l, r'⟩, -, h4⟩ := bind_okE h1
    obtain ⟨z, h5, h6⟩ := bind_okE h4
    injection h6 with h6
    injection h6 with h6 h7
    subst h6
    unfold line at h5
    cases l with
    | none =>
      injection h5 with h5
      subst h5
      simp only at h2
      injection h2 with h2
      injection h2 with h2 _
      subst h2
      exact ⟨rfl, rfl, rfl⟩
    | some rl =>
      simp only at h5
      rw [if_neg hb] at h5
      obtain ⟨s1, h8, h9⟩ := bind_okE h5
      injection h9 with h9
      subst h9
      obtain ⟨-, rfl⟩ := finish_ok h8
      simp only at h2
      have := ih (s := { s with live := false, file := some (saveLines s.hist) }) hb h2
      exact this

/-- C118, violated: the second line of an entry is dropped, and the memory of the history is given
back; the third line, or the end of the input, gives it back again. -/
theorem third_line_violated (E : Env) {s : St} (hb : s.buf ≠ none) (hl : s.live = true)
    (t u : Str) :
    ∃ s', line E (some t) s = .ok (.go s') ∧ s'.ran = s.ran ∧ line E (some u) s' = .ub := by
  refine ⟨{ s with live := false, file := some (saveLines s.hist) }, ?_, rfl, ?_⟩
  · unfold line
    simp only
    rw [if_neg hb]
    simp [finish, hl]
  · unfold line
    simp only
    rw [if_neg hb]
    simp [finish]

end Verif.Repl
