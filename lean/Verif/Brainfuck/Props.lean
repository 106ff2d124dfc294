import Verif.Brainfuck.Model

/-!
# The Brainfuck plugin: properties
-/

namespace Verif.Brainfuck

open Verif.Str (Byte)
open Spec

/-! ## Lines and commands -/

/-- line of a command -/
def line : Cmd → CLine
  | .right => .incPtr
  | .left => .decPtr
  | .inc => .incCell
  | .dec => .decCell
  | .put => .put
  | .get => .get
  | .open_ => .whileOpen
  | .close => .close

theorem emit_program (body : List Byte) : body.flatMap emitChar = (program body).map line := by
  induction body with
  | nil => rfl
  | cons c r ih =>
      have hc : emitChar c = ((cmd c).map line).toList := by
        unfold emitChar cmd
        repeat' split
        all_goals rfl
      rw [List.flatMap_cons, ih, hc]
      cases h : cmd c <;> simp [program, h]

theorem line_inj {a b : Cmd} (h : line a = line b) : a = b := by
  cases a <;> cases b <;> simp_all [line]

/-- a balanced program is a list of statements -/
theorem parses_of_balanced {p : List Cmd} (h : Balanced p) : ∃ ts, Parses (p.map line) ts := by
  induction h with
  | nil => exact ⟨[], .nil⟩
  | @plain c p h1 h2 _ ih =>
      obtain ⟨ts, ih⟩ := ih
      cases c
      · exact ⟨_, .incPtr ih⟩
      · exact ⟨_, .decPtr ih⟩
      · exact ⟨_, .incCell ih⟩
      · exact ⟨_, .decCell ih⟩
      · exact ⟨_, .put ih⟩
      · exact ⟨_, .get ih⟩
      · exact absurd rfl h1
      · exact absurd rfl h2
  | brackets _ _ ih1 ih2 =>
      obtain ⟨ts, h1⟩ := ih1
      obtain ⟨us, h2⟩ := ih2
      refine ⟨.loop ts :: us, ?_⟩
      have := Parses.loop h1 h2
      simpa [line] using this

theorem balanced_of_parses {ls : List CLine} {ts : List CStmt} (h : Parses ls ts) :
    ∀ p : List Cmd, p.map line = ls → Balanced p := by
  induction h with
  | nil => intro p hp; simp at hp; subst hp; exact .nil
  | incPtr _ ih | decPtr _ ih | incCell _ ih | decCell _ ih | put _ ih | get _ ih =>
      intro p hp
      cases p with
      | nil => simp at hp
      | cons c p =>
          simp only [List.map_cons, List.cons.injEq] at hp
          refine .plain ?_ ?_ (ih p hp.2) <;> (rintro rfl; exact absurd hp.1 (by simp [line]))
  | loop _ _ ih1 ih2 =>
      intro p hp
      cases p with
      | nil => simp at hp
      | cons c p =>
          simp only [List.map_cons, List.cons.injEq] at hp
          obtain ⟨hc, hp⟩ := hp
          obtain ⟨p1, p2, rfl, e1, e2⟩ := List.map_eq_append_iff.1 hp
          cases p2 with
          | nil => simp at e2
          | cons d p2 =>
              simp only [List.map_cons, List.cons.injEq] at e2
              have hc : c = .open_ := line_inj (by rw [hc]; rfl)
              have hd : d = .close := line_inj (by rw [e2.1]; rfl)
              subst hc hd
              exact .brackets (ih1 p1 e1) (ih2 p2 e2.2)

/-! ## Brackets have one partner -/

/-- a balanced text followed by a closing bracket ends at a definite place -/
theorem balanced_unique {b : List Cmd} (h : Balanced b) : ∀ {b' c c' : List Cmd}, Balanced b' →
    b ++ .close :: c = b' ++ .close :: c' → b = b' ∧ c = c' := by
  induction h with
  | nil =>
      intro b' c c' hb' e
      cases hb' with
      | nil => simpa using e
      | plain h1 h2 _ => simp at e; exact absurd e.1.symm h2
      | brackets => simp at e
  | plain h1 h2 _ ih =>
      intro b' c c' hb' e
      cases hb' with
      | nil => simp at e; exact absurd e.1 h2
      | plain g1 g2 hb =>
          simp only [List.cons_append, List.cons.injEq] at e
          obtain ⟨r1, r2⟩ := ih hb e.2
          exact ⟨by rw [e.1, r1], r2⟩
      | brackets => simp at e; exact absurd e.1 h1
  | @brackets p q _ _ ih1 ih2 =>
      intro b' c c' hb' e
      cases hb' with
      | nil => simp at e
      | plain g1 g2 hb => simp at e; exact absurd e.1.symm g1
      | @brackets p' q' hp' hq' =>
          simp only [List.cons_append, List.append_assoc, List.cons.injEq, true_and] at e
          obtain ⟨r1, r2⟩ := ih1 hp' e
          obtain ⟨r3, r4⟩ := ih2 hq' r2
          exact ⟨by rw [r1, r3], r4⟩

theorem balanced_append {p q : List Cmd} (h : Balanced p) (hq : Balanced q) : Balanced (p ++ q) := by
  induction h with
  | nil => exact hq
  | plain h1 h2 _ ih => exact .plain h1 h2 ih
  | @brackets p r _ _ ih1 ih2 =>
      have := Balanced.brackets (p := p) (q := r ++ q) ‹Balanced p› ih2
      simpa using this

/-- the same seen from behind -/
theorem balanced_snoc {p : List Cmd} (h : Balanced p) :
    p = [] ∨ (∃ q c, p = q ++ [c] ∧ c ≠ .open_ ∧ c ≠ .close ∧ Balanced q) ∨
      ∃ q r, p = q ++ .open_ :: (r ++ [.close]) ∧ Balanced q ∧ Balanced r := by
  induction h with
  | nil => exact .inl rfl
  | @plain c p h1 h2 hp ih =>
      right
      rcases ih with rfl | ⟨q, d, rfl, g1, g2, hq⟩ | ⟨q, r, rfl, hq, hr⟩
      · exact .inl ⟨[], c, rfl, h1, h2, .nil⟩
      · exact .inl ⟨c :: q, d, rfl, g1, g2, .plain h1 h2 hq⟩
      · exact .inr ⟨c :: q, r, rfl, .plain h1 h2 hq, hr⟩
  | @brackets p q hp hq ih1 ih2 =>
      right
      rcases ih2 with rfl | ⟨q', d, rfl, g1, g2, hq'⟩ | ⟨q', r, rfl, hq', hr⟩
      · exact .inr ⟨[], p, rfl, .nil, hp⟩
      · exact .inl ⟨.open_ :: (p ++ .close :: q'), d, by simp, g1, g2, .brackets hp hq'⟩
      · exact .inr ⟨.open_ :: (p ++ .close :: q'), r, by simp, .brackets hp hq', hr⟩

theorem last_eq {a b : List Cmd} {x y : Cmd} (h : a ++ [x] = b ++ [y]) : a = b ∧ x = y := by
  obtain ⟨h1, h2⟩ := List.append_inj' h rfl
  exact ⟨h1, by simpa using h2⟩

theorem balanced_unique_back : ∀ (n : Nat) {b b' a a' : List Cmd}, b.length < n → Balanced b → Balanced b' →
    a ++ Cmd.open_ :: b = a' ++ Cmd.open_ :: b' → a = a' ∧ b = b' := by
  intro n
  induction n with
  | zero => intro b b' a a' hn; omega
  | succ n ih =>
      intro b b' a a' hn hb hb' e
      rcases balanced_snoc hb with rfl | ⟨p, d, rfl, f1, f2, hp⟩ | ⟨p, s, rfl, hp, hs⟩ <;>
        rcases balanced_snoc hb' with rfl | ⟨q, c, rfl, g1, g2, hq⟩ | ⟨q, r, rfl, hq, hr⟩
      · exact ⟨(last_eq e).1, rfl⟩
      · have e' : a ++ [Cmd.open_] = (a' ++ Cmd.open_ :: q) ++ [c] := by simpa using e
        exact absurd (last_eq e').2.symm g1
      · have e' : a ++ [Cmd.open_] = (a' ++ Cmd.open_ :: (q ++ Cmd.open_ :: r)) ++ [Cmd.close] := by simpa using e
        exact absurd (last_eq e').2 (by simp)
      · have e' : (a ++ Cmd.open_ :: p) ++ [d] = a' ++ [Cmd.open_] := by simpa using e
        exact absurd (last_eq e').2 f1
      · have e' : (a ++ Cmd.open_ :: p) ++ [d] = (a' ++ Cmd.open_ :: q) ++ [c] := by simpa using e
        obtain ⟨e1, e2⟩ := last_eq e'
        obtain ⟨r1, r2⟩ := ih (by simp at hn; omega) hp hq e1
        exact ⟨r1, by rw [r2, e2]⟩
      · have e' : (a ++ Cmd.open_ :: p) ++ [d] = (a' ++ Cmd.open_ :: (q ++ Cmd.open_ :: r)) ++ [Cmd.close] := by
          simpa using e
        exact absurd (last_eq e').2 f2
      · have e' : (a ++ Cmd.open_ :: (p ++ Cmd.open_ :: s)) ++ [Cmd.close] = a' ++ [Cmd.open_] := by
          simpa using e
        exact absurd (last_eq e').2 (by simp)
      · have e' : (a ++ Cmd.open_ :: (p ++ Cmd.open_ :: s)) ++ [Cmd.close] = (a' ++ Cmd.open_ :: q) ++ [c] := by
          simpa using e
        exact absurd (last_eq e').2.symm g2
      · have e' : ((a ++ Cmd.open_ :: p) ++ Cmd.open_ :: s) ++ [Cmd.close] =
            ((a' ++ Cmd.open_ :: q) ++ Cmd.open_ :: r) ++ [Cmd.close] := by
          simpa using e
        obtain ⟨e1, -⟩ := last_eq e'
        simp only [List.length_append, List.length_cons, List.length_nil] at hn
        obtain ⟨r1, r2⟩ := ih (by omega) hs hr e1
        obtain ⟨r3, r4⟩ := ih (by omega) hp hq r1
        exact ⟨r3, by rw [r2, r4]⟩

theorem matches_forward {p : List Cmd} {i j j' : Nat} (h : Matches p i j) (h' : Matches p i j') : j = j' := by
  obtain ⟨a, b, c, e, hb, hi, hj⟩ := h
  obtain ⟨a', b', c', e', hb', hi', hj'⟩ := h'
  rw [e] at e'
  obtain ⟨r1, r2⟩ := List.append_inj e' (by omega)
  simp only [List.cons.injEq, true_and] at r2
  obtain ⟨r3, _⟩ := balanced_unique hb hb' r2
  rw [hj, hj', r1, r3]

theorem matches_back {p : List Cmd} {i i' j : Nat} (h : Matches p i j) (h' : Matches p i' j) : i = i' := by
  obtain ⟨a, b, c, e, hb, hi, hj⟩ := h
  obtain ⟨a', b', c', e', hb', hi', hj'⟩ := h'
  have e2 : (a ++ .open_ :: b) ++ .close :: c = (a' ++ .open_ :: b') ++ .close :: c' := by
    rw [e] at e'; simpa using e'
  obtain ⟨r1, _⟩ := List.append_inj e2 (by simp; omega)
  obtain ⟨r2, _⟩ := balanced_unique_back (b.length + 1) (Nat.lt_succ_self _) hb hb' r1
  rw [hi, hi', r2]

/-! ## From C to the machine -/

theorem Spec.Steps.trans {p : List Cmd} {n m : Nat} {x y z : Nat × St} (h : Steps p n x y)
    (h' : Steps p m y z) : Steps p (n + m) x z := by
  induction h with
  | refl => simpa using h'
  | step hs _ ih =>
      have := Steps.step hs (ih h')
      simpa [Nat.add_right_comm] using this

/-- the statements `ts` stand at `i` in the program, up to `j` -/
def At (p : List Cmd) (ts : List CStmt) (i j : Nat) : Prop :=
  ∃ a q c, p = a ++ (q ++ c) ∧ Parses (q.map line) ts ∧ i = a.length ∧ j = a.length + q.length

theorem getElem_mid {p a c : List Cmd} {x : Cmd} {i : Nat} (e : p = a ++ x :: c) (hi : i = a.length) :
    p[i]? = some x := by
  subst e hi; simp

theorem at_cons {p : List Cmd} {ts : List CStmt} {t : CStmt} {i j : Nat} (h : At p (t :: ts) i j) :
    (∃ x, (∀ b, t ≠ .loop b) ∧ p[i]? = some x ∧
      ((x = .right ∧ t = .incPtr) ∨ (x = .left ∧ t = .decPtr) ∨ (x = .inc ∧ t = .incCell) ∨
        (x = .dec ∧ t = .decCell) ∨ (x = .put ∧ t = .put) ∨ (x = .get ∧ t = .get)) ∧ At p ts (i + 1) j) ∨
    ∃ b k, t = .loop b ∧ At p b (i + 1) k ∧ Matches p i k ∧ At p ts (k + 1) j := by
  obtain ⟨a, q, c, e, hq, hi, hj⟩ := h
  have hsimple : ∀ (x : Cmd) (ls : List CLine), line x :: ls = q.map line →
      Parses ls ts → p[i]? = some x ∧ At p ts (i + 1) j := by
    intro x ls hls hp
    cases q with
    | nil => simp at hls
    | cons y q =>
        simp only [List.map_cons, List.cons.injEq] at hls
        have hx := line_inj hls.1
        subst hx
        refine ⟨getElem_mid (by simpa using e) hi, a ++ [x], q, c, by simpa using e, ?_, by simp [hi], ?_⟩
        · rw [← hls.2]; exact hp
        · simp [hj]; omega
  generalize hl : q.map line = ls at hq
  cases hq with
  | incPtr hp =>
      obtain ⟨h1, h2⟩ := hsimple .right _ hl.symm hp
      exact .inl ⟨_, by simp, h1, by simp, h2⟩
  | decPtr hp =>
      obtain ⟨h1, h2⟩ := hsimple .left _ hl.symm hp
      exact .inl ⟨_, by simp, h1, by simp, h2⟩
  | incCell hp =>
      obtain ⟨h1, h2⟩ := hsimple .inc _ hl.symm hp
      exact .inl ⟨_, by simp, h1, by simp, h2⟩
  | decCell hp =>
      obtain ⟨h1, h2⟩ := hsimple .dec _ hl.symm hp
      exact .inl ⟨_, by simp, h1, by simp, h2⟩
  | put hp =>
      obtain ⟨h1, h2⟩ := hsimple .put _ hl.symm hp
      exact .inl ⟨_, by simp, h1, by simp, h2⟩
  | get hp =>
      obtain ⟨h1, h2⟩ := hsimple .get _ hl.symm hp
      exact .inl ⟨_, by simp, h1, by simp, h2⟩
  | @loop l1 l2 b _ hb hts =>
      right
      cases q with
      | nil => simp at hl
      | cons y q =>
          simp only [List.map_cons, List.cons.injEq] at hl
          obtain ⟨hy, hl⟩ := hl
          obtain ⟨q1, q2, rfl, e1, e2⟩ := List.map_eq_append_iff.1 hl
          cases q2 with
          | nil => simp at e2
          | cons d q2 =>
              simp only [List.map_cons, List.cons.injEq] at e2
              have hy : y = .open_ := line_inj (by rw [hy]; rfl)
              have hd : d = .close := line_inj (by rw [e2.1]; rfl)
              subst hy hd
              refine ⟨b, a.length + 1 + q1.length, rfl, ⟨a ++ [.open_], q1, .close :: (q2 ++ c), ?_, ?_, ?_, ?_⟩,
                ⟨a, q1, q2 ++ c, ?_, ?_, ?_, ?_⟩, ⟨a ++ .open_ :: (q1 ++ [.close]), q2, c, ?_, ?_, ?_, ?_⟩⟩
              · simpa using e
              · rw [e1]; exact hb
              · simp [hi]
              · simp
              · simpa using e
              · exact balanced_of_parses hb q1 e1
              · exact hi
              · rfl
              · simpa using e
              · rw [e2.2]; exact hts
              · simp; omega
              · simp [hj]; omega

theorem at_nil {p : List Cmd} {i j : Nat} (h : At p [] i j) : i = j := by
  obtain ⟨a, q, c, e, hq, hi, hj⟩ := h
  generalize hl : q.map line = ls at hq
  cases hq
  simp at hl
  subst hl
  simp at hj
  omega

theorem matches_close {p : List Cmd} {i j : Nat} (h : Matches p i j) : p[j]? = some .close := by
  obtain ⟨a, b, c, e, _, _, hj⟩ := h
  exact getElem_mid (a := a ++ .open_ :: b) (c := c) (by simpa using e) (by simp; omega)

theorem matches_open {p : List Cmd} {i j : Nat} (h : Matches p i j) : p[i]? = some .open_ := by
  obtain ⟨a, b, c, e, _, hi, _⟩ := h
  exact getElem_mid e hi

theorem at_le {p : List Cmd} {ts : List CStmt} {i j : Nat} (h : At p ts i j) : i ≤ j := by
  obtain ⟨a, q, c, e, hq, hi, hj⟩ := h; omega

theorem matches_lt {p : List Cmd} {i j : Nat} (h : Matches p i j) : i < j := by
  obtain ⟨a, b, c, e, _, hi, hj⟩ := h; omega

/-- at both brackets of a pair the machine does the same -/
theorem step_close {p : List Cmd} {i k : Nat} {s : St} {y : Nat × St} (hm : Matches p i k)
    (h : Step p (i, s) y) : Step p (k, s) y := by
  have ho := matches_open hm
  cases h with
  | right h | left h | inc h | dec h | put h | get h => rw [ho] at h; simp at h
  | skip h h0 =>
      rw [matches_forward h hm]
      exact .leave (matches_close hm) h0
  | enter h h0 => exact .back hm h0
  | back h => have := matches_close h; rw [ho] at this; simp at this
  | leave h => rw [ho] at h; simp at h

theorem step_open {p : List Cmd} {i k : Nat} {s : St} {y : Nat × St} (hm : Matches p i k)
    (h : Step p (k, s) y) : Step p (i, s) y := by
  have hc := matches_close hm
  cases h with
  | right h | left h | inc h | dec h | put h | get h => rw [hc] at h; simp at h
  | skip h => have := matches_open h; rw [hc] at this; simp at this
  | enter h => rw [hc] at h; simp at h
  | back h h0 =>
      rw [matches_back h hm]
      exact .enter (matches_open hm) h0
  | leave h h0 => exact .skip hm h0

/-- what the C code computes, the machine computes, unless it leaves the memory -/
theorem machine_of_c {p : List Cmd} {ts : List CStmt} {s s' : St} (h : CExec ts s s') :
    ∀ {i j : Nat}, At p ts i j → s.ptr < 30000 →
      ((∃ n, Steps p n (i, s) (j, s')) ∧ s'.ptr < 30000) ∨ ∃ n x, Steps p n (i, s) x ∧ Leaves p x := by
  have simple : ∀ {ts : List CStmt} {t : CStmt} {s s1 s' : St} {i j : Nat} {x : Cmd} , At p (t :: ts) i j →
      (∀ b, t ≠ .loop b) → (p[i]? = some x → Step p (i, s) (i + 1, s1)) →
      ((x = .right ∧ t = .incPtr) ∨ (x = .left ∧ t = .decPtr) ∨ (x = .inc ∧ t = .incCell) ∨
        (x = .dec ∧ t = .decCell) ∨ (x = .put ∧ t = .put) ∨ (x = .get ∧ t = .get)) →
      (At p ts (i + 1) j → ((∃ n, Steps p n (i + 1, s1) (j, s')) ∧ s'.ptr < 30000) ∨
        ∃ n x, Steps p n (i + 1, s1) x ∧ Leaves p x) →
      ((∃ n, Steps p n (i, s) (j, s')) ∧ s'.ptr < 30000) ∨ ∃ n x, Steps p n (i, s) x ∧ Leaves p x := by
    intro ts t s s1 s' i j x hat hl hstep hx hrest
    rcases at_cons hat with ⟨y, _, hy, hk, hat'⟩ | ⟨b, k, hb, _⟩
    · have hxy : y = x := by
        rcases hx with ⟨rfl, rfl⟩ | ⟨rfl, rfl⟩ | ⟨rfl, rfl⟩ | ⟨rfl, rfl⟩ | ⟨rfl, rfl⟩ | ⟨rfl, rfl⟩ <;>
          simpa using hk
      subst hxy
      have hs := hstep hy
      rcases hrest hat' with ⟨⟨n, hn⟩, hp⟩ | ⟨n, z, hn, hz⟩
      · exact .inl ⟨⟨n + 1, .step hs hn⟩, hp⟩
      · exact .inr ⟨n + 1, z, .step hs hn, hz⟩
    · exact absurd hb (hl b)
  induction h with
  | nil =>
      intro i j hat hp
      rw [at_nil hat]
      exact .inl ⟨⟨0, .refl⟩, hp⟩
  | @incPtr ts s s' hle _ ih =>
      intro i j hat hp
      by_cases hlt : s.ptr + 1 < 30000
      · exact simple (x := .right) hat (by simp) (fun h => .right h hlt) (by simp) (fun h => ih h hlt)
      · rcases at_cons hat with ⟨y, _, hy, hk, _⟩ | ⟨b, k, hb, _⟩
        · have : y = .right := by simpa using hk
          subst this
          exact .inr ⟨0, _, .refl, hy, by show s.ptr + 1 = 30000; omega⟩
        · simp at hb
  | @decPtr ts s s' hle _ ih =>
      intro i j hat hp
      exact simple (x := .left) hat (by simp) (fun h => .left h hle) (by simp)
        (fun h => ih h (by show s.ptr - 1 < 30000; omega))
  | @incCell ts s s' hle _ ih =>
      intro i j hat hp
      exact simple (x := .inc) hat (by simp) (fun h => .inc h) (by simp) (fun h => ih h hp)
  | @decCell ts s s' hle _ ih =>
      intro i j hat hp
      exact simple (x := .dec) hat (by simp) (fun h => .dec h) (by simp) (fun h => ih h hp)
  | @put ts s s' hle _ ih =>
      intro i j hat hp
      exact simple (x := .put) hat (by simp) (fun h => .put h) (by simp) (fun h => ih h hp)
  | @get ts s s' hle _ ih =>
      intro i j hat hp
      exact simple (x := .get) hat (by simp) (fun h => .get h) (by simp) (fun h => ih h hp)
  | @loopEnd b ts s s' hlt h0 _ ih =>
      intro i j hat hp
      rcases at_cons hat with ⟨y, hl, _⟩ | ⟨b', k, hb, _, hm, hat'⟩
      · exact absurd rfl (hl b)
      · have hs : Step p (i, s) (k + 1, s) := .skip hm h0
        rcases ih hat' hp with ⟨⟨n, hn⟩, hp'⟩ | ⟨n, z, hn, hz⟩
        · exact .inl ⟨⟨n + 1, .step hs hn⟩, hp'⟩
        · exact .inr ⟨n + 1, z, .step hs hn, hz⟩
  | @loopTurn b ts s s1 s' hlt h0 _ _ ih1 ih2 =>
      intro i j hat hp
      rcases at_cons hat with ⟨y, hl, _⟩ | ⟨b', k, hb, hbody, hm, hat'⟩
      · exact absurd rfl (hl b)
      · simp only [CStmt.loop.injEq] at hb
        subst hb
        have hs : Step p (i, s) (i + 1, s) := .enter (matches_open hm) h0
        rcases ih1 hbody hp with ⟨⟨n, hn⟩, hp1⟩ | ⟨n, z, hn, hz⟩
        · -- the loop again, from its beginning
          have hik := matches_lt hm
          have hkj := at_le hat'
          rcases ih2 hat hp1 with ⟨⟨m, hm'⟩, hp2⟩ | ⟨m, z, hm', hz⟩
          · cases hm' with
            | refl => omega
            | step h1 h2 =>
                exact .inl ⟨⟨_, .step hs (hn.trans (.step (step_close hm h1) h2))⟩, hp2⟩
          · cases hm' with
            | refl => have := hz.1; rw [matches_open hm] at this; simp at this
            | step h1 h2 =>
                exact .inr ⟨_, z, .step hs (hn.trans (.step (step_close hm h1) h2)), hz⟩
        · exact .inr ⟨n + 1, z, .step hs hn, hz⟩

/-! ## From the machine to C -/

theorem getElem_end (p : List Cmd) : p[p.length]? = none := by simp

/-- what the machine computes, the C code computes -/
theorem c_of_machine {p : List Cmd} {s' : St} : ∀ (n : Nat) {ts : List CStmt} {i j : Nat} {s : St},
    At p ts i j → s.ptr < 30000 → Steps p n (i, s) (p.length, s') →
    ∃ m s1, m ≤ n ∧ CExec ts s s1 ∧ s1.ptr < 30000 ∧ Steps p m (j, s1) (p.length, s') := by
  intro n
  induction n using Nat.strongRecOn with
  | _ n ih =>
      intro ts i j s hat hp h
      cases ts with
      | nil => rw [at_nil hat] at h; exact ⟨n, s, Nat.le_refl _, .nil, hp, h⟩
      | cons t ts =>
          rcases at_cons hat with ⟨x, _, hx, hk, hat'⟩ | ⟨b, k, rfl, hb, hm, hat'⟩
          · cases h with
            | refl => rw [getElem_end] at hx; simp at hx
            | @step n _ y _ h1 h2 =>
                have key : ∀ s2 : St, y = (i + 1, s2) → s2.ptr < 30000 →
                    ∃ m s1, m ≤ n + 1 ∧ CExec ts s2 s1 ∧ s1.ptr < 30000 ∧ Steps p m (j, s1) (p.length, s') := by
                  rintro s2 rfl hp2
                  obtain ⟨m, s1, hm, hc, hp1, hs⟩ := ih n (by omega) hat' hp2 h2
                  exact ⟨m, s1, by omega, hc, hp1, hs⟩
                cases h1 with
                | right h hlt =>
                    rw [hx] at h
                    obtain rfl := Option.some.inj h
                    obtain rfl : t = .incPtr := by simpa using hk
                    obtain ⟨m, s1, h3, h4, h5, h6⟩ := key _ rfl hlt
                    exact ⟨m, s1, h3, .incPtr (by omega) h4, h5, h6⟩
                | left h hlt =>
                    rw [hx] at h
                    obtain rfl := Option.some.inj h
                    obtain rfl : t = .decPtr := by simpa using hk
                    obtain ⟨m, s1, h3, h4, h5, h6⟩ := key _ rfl (by show s.ptr - 1 < 30000; omega)
                    exact ⟨m, s1, h3, .decPtr hlt h4, h5, h6⟩
                | inc h =>
                    rw [hx] at h
                    obtain rfl := Option.some.inj h
                    obtain rfl : t = .incCell := by simpa using hk
                    obtain ⟨m, s1, h3, h4, h5, h6⟩ := key _ rfl hp
                    exact ⟨m, s1, h3, .incCell hp h4, h5, h6⟩
                | dec h =>
                    rw [hx] at h
                    obtain rfl := Option.some.inj h
                    obtain rfl : t = .decCell := by simpa using hk
                    obtain ⟨m, s1, h3, h4, h5, h6⟩ := key _ rfl hp
                    exact ⟨m, s1, h3, .decCell hp h4, h5, h6⟩
                | put h =>
                    rw [hx] at h
                    obtain rfl := Option.some.inj h
                    obtain rfl : t = .put := by simpa using hk
                    obtain ⟨m, s1, h3, h4, h5, h6⟩ := key _ rfl hp
                    exact ⟨m, s1, h3, .put hp h4, h5, h6⟩
                | get h =>
                    rw [hx] at h
                    obtain rfl := Option.some.inj h
                    obtain rfl : t = .get := by simpa using hk
                    obtain ⟨m, s1, h3, h4, h5, h6⟩ := key _ rfl hp
                    exact ⟨m, s1, h3, .get hp h4, h5, h6⟩
                | skip h => rw [matches_open h] at hx; simp at hx; subst hx; simp at hk
                | enter h => rw [h] at hx; simp at hx; subst hx; simp at hk
                | back h => rw [matches_close h] at hx; simp at hx; subst hx; simp at hk
                | leave h => rw [h] at hx; simp at hx; subst hx; simp at hk
          · have ho := matches_open hm
            have hc := matches_close hm
            cases h with
            | refl => rw [getElem_end] at ho; simp at ho
            | @step n _ y _ h1 h2 =>
                cases h1 with
                | right h | left h | inc h | dec h | put h | get h => rw [ho] at h; simp at h
                | skip h h0 =>
                    rw [matches_forward h hm] at h2
                    obtain ⟨m, s1, h3, h4, h5, h6⟩ := ih n (by omega) hat' hp h2
                    exact ⟨m, s1, by omega, .loopEnd hp h0 h4, h5, h6⟩
                | enter h h0 =>
                    obtain ⟨m, s1, h3, h4, h5, h6⟩ := ih n (by omega) hb hp h2
                    cases h6 with
                    | refl => rw [getElem_end] at hc; simp at hc
                    | @step m _ y _ g1 g2 =>
                        obtain ⟨m', s2, k3, k4, k5, k6⟩ :=
                          ih (m + 1) (by omega) hat h5 (.step (step_open hm g1) g2)
                        exact ⟨m', s2, by omega, .loopTurn hp h0 h4 k4, k5, k6⟩
                | back h => have := matches_close h; rw [ho] at this; simp at this
                | leave h => rw [ho] at h; simp at h

/-! ## C41 -/

theorem parses_unique {ls : List CLine} {ts : List CStmt} (h : Parses ls ts) :
    ∀ {ls' : List CLine} {ts' : List CStmt} {r r' : List CLine}, Parses ls' ts' →
      ls ++ CLine.close :: r = ls' ++ CLine.close :: r' → ts = ts' ∧ r = r' := by
  induction h with
  | nil =>
      intro ls' ts' r r' h' e
      cases h' <;> simp at e
      exact ⟨rfl, e⟩
  | incPtr _ ih | decPtr _ ih | incCell _ ih | decCell _ ih | put _ ih | get _ ih =>
      intro ls' ts' r r' h' e
      cases h' <;> simp at e
      rename_i h'
      obtain ⟨r1, r2⟩ := ih h' e
      exact ⟨by rw [r1], r2⟩
  | loop _ _ ih1 ih2 =>
      intro ls' ts' r r' h' e
      cases h' <;> simp at e
      rename_i h1 h2
      obtain ⟨r1, r2⟩ := ih1 h1 e
      obtain ⟨r3, r4⟩ := ih2 h2 r2
      exact ⟨by rw [r1, r3], r4⟩

/-- **C41**: the generated lines form a block of C statements exactly if the brackets of the program
are balanced, and then in one way only. -/
theorem accepted_iff (text : List Byte) :
    (∃ ts, Block (transpile text) ts) ↔ Balanced (program text) := by
  constructor
  · rintro ⟨ts, b, e, hp⟩
    simp only [transpile, List.cons.injEq, true_and] at e
    obtain ⟨e1, -⟩ := List.append_inj' e rfl
    exact balanced_of_parses hp _ (by rw [← emit_program, e1])
  · intro h
    obtain ⟨ts, hp⟩ := parses_of_balanced h
    exact ⟨ts, _, rfl, by rw [emit_program]; exact hp⟩

theorem block_unique {ls : List CLine} {ts us : List CStmt} (h : Block ls ts) (h' : Block ls us) : ts = us := by
  obtain ⟨b, e, hp⟩ := h
  obtain ⟨b', e', hp'⟩ := h'
  rw [e] at e'
  simp only [List.cons.injEq, true_and] at e'
  exact (parses_unique hp hp' e').1

/-- **C41**, in part: the first time the generated block is executed (the memory is all zeros) it does
what the program does: if the program halts, the block ends with the same memory and output, having read
the same input; and if the block ends, so does the program, unless it moves beyond its last cell.
Missing: later executions and bodies of eight kilobytes; see below. -/
theorem brainfuck_partial (text : List Byte) (ts : List CStmt) (hts : Block (transpile text) ts)
    (input : List Byte) (s' : St) :
    ((∃ n, Steps (program text) n (0, start input) ((program text).length, s')) →
      CExec ts (start input) s') ∧
    (CExec ts (start input) s' →
      (∃ n, Steps (program text) n (0, start input) ((program text).length, s')) ∨
      ∃ n x, Steps (program text) n (0, start input) x ∧ Leaves (program text) x) := by
  obtain ⟨b, e, hp⟩ := hts
  simp only [transpile, List.cons.injEq, true_and] at e
  obtain ⟨e1, -⟩ := List.append_inj' e rfl
  rw [← e1, emit_program] at hp
  have hat : At (program text) ts 0 (program text).length := ⟨[], program text, [], by simp, hp, rfl, by simp⟩
  constructor
  · rintro ⟨n, hn⟩
    obtain ⟨m, s1, _, hc, _, hm⟩ := c_of_machine n hat (by simp [start]) hn
    cases hm with
    | refl => exact hc
    | step h1 _ =>
        exfalso
        cases h1 with
        | right h | left h | inc h | dec h | put h | get h | enter h | leave h =>
            rw [getElem_end] at h; simp at h
        | skip h => have := matches_open h; rw [getElem_end] at this; simp at this
        | back h => have := matches_close h; rw [getElem_end] at this; simp at this
  · intro hc
    rcases machine_of_c hc hat (by simp [start]) with ⟨h, _⟩ | h
    · exact .inl h
    · exact .inr h

/-- `,[.-]` is such a program -/
example : ∃ ts, Block (transpile [44, 91, 46, 45, 93]) ts :=
  (accepted_iff _).2 (.plain (by decide) (by decide) (.brackets (p := [.put, .dec]) (q := [])
    (.plain (by decide) (by decide) (.plain (by decide) (by decide) .nil)) .nil))

/-- **C41** is violated: the memory is `static`, so a block that is executed again finds what the last
time has left: `+.` writes 1 the first time and 2 the second time. -/
theorem second_run_violated (ts : List CStmt) (hts : Block (transpile [43, 46]) ts) :
    ∃ s1 s2 : St, CExec ts (start []) s1 ∧ s1.output = [1] ∧
      CExec ts { s1 with ptr := 0, input := [], output := [] } s2 ∧ s2.output = [2] := by
  have hb : Block (transpile [43, 46]) [.incCell, .put] := ⟨_, rfl, .incCell (.put .nil)⟩
  obtain rfl := block_unique hts hb
  refine ⟨_, _, .incCell (by simp [start]) (.put (by simp [start, St.set]) .nil), ?_,
    .incCell (by simp) (.put (by simp [start, St.set]) .nil), ?_⟩
  · simp [start, St.set]
  · simp [start, St.set]

/-! ## Collecting the body -/

theorem program_append (a b : List Byte) : program (a ++ b) = program a ++ program b := by
  simp [program]

/-- **C41**, in part: the text handed to the plugin has the commands of the tokens between the braces,
if it fits. -/
theorem collect_partial (ts : List Tok) (h : (ts.map fun t => t.text.length + 1).sum + 2 ≤ 8192) :
    program (collect [] ts) = program (ts.flatMap Tok.text) := by
  suffices ∀ (ts : List Tok) (body : List Byte),
      body.length + (ts.map fun t => t.text.length + 1).sum + 2 ≤ 8192 →
      program (collect body ts) = program body ++ program (ts.flatMap Tok.text) by
    have := this ts [] (by simpa using h)
    simpa [program] using this
  intro ts
  induction ts with
  | nil => intro body _; simp [collect, program]
  | cons t ts ih =>
      intro body hb
      simp only [List.map_cons, List.sum_cons] at hb
      rw [collect, if_pos (by omega), ih _ (by simp; omega)]
      have hsep : program ((if t.newLine then 10 else 32) :: t.text) = program t.text := by
        cases t.newLine <;> simp [program, cmd]
      rw [program_append, hsep, List.flatMap_cons, program_append, List.append_assoc]

/-- **C41** is violated: of a longer body, tokens are left out without a word: a program of more than
8192 commands never reaches the plugin as it is. -/
theorem long_body_violated (ts : List Tok) (h : 8192 ≤ (program (ts.flatMap Tok.text)).length) :
    program (collect [] ts) ≠ program (ts.flatMap Tok.text) := by
  have hl : ∀ (ts : List Tok) (body : List Byte), body.length < 8192 → (collect body ts).length < 8192 := by
    intro ts
    induction ts with
    | nil => intro body hb; exact hb
    | cons t ts ih =>
        intro body hb
        unfold collect
        split
        · exact ih _ (by simp; omega)
        · exact ih _ hb
  intro e
  have h1 := hl ts [] (by simp)
  have h2 : (program (collect [] ts)).length ≤ (collect [] ts).length := List.length_filterMap_le _ _
  rw [e] at h2
  omega

/-- there are such programs -/
example (n : Nat) (h : 8192 ≤ n) :
    8192 ≤ (program ((List.replicate n ⟨[43], false⟩ : List Tok).flatMap Tok.text)).length := by
  have : ∀ n, (program ((List.replicate n ⟨[43], false⟩ : List Tok).flatMap Tok.text)).length = n := by
    intro n
    induction n with
    | zero => rfl
    | succ n ih => rw [List.replicate_succ, List.flatMap_cons, program_append, List.length_append, ih]; simp [program, cmd]; omega
  rw [this]; exact h

end Verif.Brainfuck
