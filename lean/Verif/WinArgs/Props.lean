import Verif.WinArgs.Model
import Verif.CJsonBuf.Props

/-!
# Arguments on Windows

C174.  `line_ok`: building the command line stays in its memory.  `received_ok_partial`: a program started with it gets the arguments that were given, if
the program's name has no quote and the other arguments survive (`Spec.Survives`).  Violated for the others: `trailing_slash_violated`,
`slash_quote_violated`, `empty_violated`.
-/

namespace Verif.WinArgs

open Verif.CJsonBuf (wr strlen wr_ok strlen_ok)

/-- What the loop of `quote_arg` writes. -/
def escaped : List Nat → List Nat
  | [] => []
  | c :: s => if c = 34 then 92 :: 34 :: escaped s else c :: escaped s

/-- The text of an argument. -/
def quoted (a : List Nat) : List Nat := if a.any special = false then a else 34 :: (escaped a ++ [34])

/-- The text of all of them. -/
def line : List (List Nat) → List Nat
  | [] => []
  | [a] => quoted a
  | a :: b :: l => quoted a ++ 32 :: line (b :: l)

theorem escaped_length : ∀ a : List Nat, (escaped a).length = a.length + a.count 34
  | [] => rfl
  | c :: s => by
      have ih := escaped_length s
      by_cases h : c = 34
      · subst h
        simp only [escaped, if_pos, List.length_cons, List.count_cons, ih]
        simp
        omega
      · simp only [escaped, if_neg h, List.length_cons, List.count_cons, ih]
        have : (c == 34) = false := by simpa using h
        simp only [this]
        simp
        omega

theorem quoteLoop_ok : ∀ (s : List Nat) (m : Mem Nat) (acc : List Nat), acc.map some <+: m → acc.length + (escaped s).length ≤ m.length →
    ∃ m', quoteLoop m acc.length s = .ok (m', acc.length + (escaped s).length) ∧ m'.length = m.length ∧ (acc ++ escaped s).map some <+: m' := by
  intro s
  induction s with
  | nil => intro m acc h _; exact ⟨m, rfl, rfl, by simpa [escaped] using h⟩
  | cons c s ih =>
      intro m acc h hl
      by_cases hc : c = 34
      · subst hc
        simp only [escaped, if_pos, List.length_cons] at hl ⊢
        obtain ⟨m1, a1, a2, a3⟩ := wr_ok [92] m acc h (by simp only [List.length_singleton]; omega)
        obtain ⟨m2, b1, b2, b3⟩ := wr_ok [34] m1 (acc ++ [92]) a3
          (by simp only [List.length_append, List.length_singleton]; omega)
        obtain ⟨m3, c1, c2, c3⟩ := ih m2 (acc ++ [92] ++ [34]) b3
          (by simp only [List.length_append, List.length_singleton]; omega)
        simp only [List.length_append, List.length_singleton] at b1 c1
        refine ⟨m3, ?_, by omega, by simpa using c3⟩
        simp only [quoteLoop, if_pos, a1, b1, Res.bind]
        rw [show acc.length + 2 = acc.length + 1 + 1 from rfl, c1]
        congr 2
        omega
      · simp only [escaped, if_neg hc, List.length_cons] at hl ⊢
        obtain ⟨m1, a1, a2, a3⟩ := wr_ok [c] m acc h (by simp only [List.length_singleton]; omega)
        obtain ⟨m3, c1, c2, c3⟩ := ih m1 (acc ++ [c]) a3
          (by simp only [List.length_append, List.length_singleton]; omega)
        simp only [List.length_append, List.length_singleton] at c1
        refine ⟨m3, ?_, by omega, by simpa using c3⟩
        simp only [quoteLoop, if_neg hc, a1, Res.bind]
        rw [c1]
        congr 2
        omega

/-- `quote_arg` writes exactly into the block it asks for. -/
theorem quoteArg_ok (a : List Nat) : quoteArg a = .ok ((quoted a ++ [0]).map some) := by
  unfold quoteArg quoted
  by_cases h : a.any special = false
  · rw [if_pos h, if_pos h]
  rw [if_neg h, if_neg h]
  have hl := escaped_length a
  have hm : (Mem.malloc (a.length + 3 + a.count 34) : Mem Nat).length = a.length + 3 + a.count 34 := List.length_replicate
  obtain ⟨m1, a1, a2, a3⟩ := wr_ok [34] (Mem.malloc (a.length + 3 + a.count 34)) [] (by simp)
    (by rw [hm]; simp only [List.length_nil, List.length_singleton]; omega)
  rw [hm] at a2
  obtain ⟨m2, b1, b2, b3⟩ := quoteLoop_ok a m1 [34] a3 (by simp only [List.length_singleton]; omega)
  obtain ⟨m3, c1, c2, c3⟩ := wr_ok [34, 0] m2 ([34] ++ escaped a) b3
    (by simp only [List.length_append, List.length_cons, List.length_nil]; omega)
  simp only [List.length_nil] at a1
  simp only [List.length_singleton] at b1
  simp only [List.length_append, List.length_singleton] at c1
  simp only [a1, Res.bind, b1, c1]
  congr 1
  obtain ⟨r, hr⟩ := c3
  have : r.length = 0 := by
    have := congrArg List.length hr
    simp only [List.length_append, List.length_map, List.length_cons, List.length_nil] at this
    omega
  have : r = [] := List.length_eq_zero_iff.mp this
  subst this
  rw [← hr]
  simp

theorem quoted_nz {a : List Nat} (h : 0 ∉ a) : 0 ∉ quoted a := by
  have he : ∀ a : List Nat, 0 ∉ a → 0 ∉ escaped a := by
    intro a
    induction a with
    | nil => intro _; simp [escaped]
    | cons c s ih =>
        intro h
        simp only [List.mem_cons, not_or] at h
        unfold escaped
        split <;> simp only [List.mem_cons, not_or]
        · exact ⟨by omega, by omega, ih h.2⟩
        · exact ⟨h.1, ih h.2⟩
  unfold quoted
  split
  · exact h
  · simp only [List.mem_cons, List.mem_append, List.not_mem_nil, or_false, not_or]
    exact ⟨by omega, he a h, by omega⟩

theorem cstr_ok : ∀ (t : List Nat) (r : Mem Nat), 0 ∉ t → cstr ((t ++ [0]).map some ++ r) = t := by
  intro t
  induction t with
  | nil => intro r _; rfl
  | cons x t ih =>
      intro r h
      simp only [List.mem_cons, not_or] at h
      cases x with
      | zero => exact absurd rfl h.1
      | succ x =>
          simp only [List.cons_append, List.map_cons, cstr]
          rw [ih r h.2]

/-- The length of the texts, each with one more. -/
def sum : List (List Nat) → Nat
  | [] => 0
  | a :: l => (quoted a).length + 1 + sum l

theorem cmdLen_ok : ∀ l : List (List Nat), (∀ a ∈ l, 0 ∉ a) → cmdLen l = .ok (sum l)
  | [], _ => rfl
  | a :: l, h => by
      have h1 := strlen_ok (quoted a) [] (quoted_nz (h a (by simp)))
      rw [List.append_nil] at h1
      simp only [cmdLen, quoteArg_ok, Res.bind, h1, cmdLen_ok l (fun b hb => h b (by simp [hb])), sum]

theorem line_length : ∀ (a : List Nat) (l : List (List Nat)), (line (a :: l)).length + 1 = sum (a :: l)
  | a, [] => by simp [line, sum]
  | a, b :: l => by
      have := line_length b l
      simp only [line, List.length_append, List.length_cons, sum] at *
      omega

theorem strcat_ok {m : Mem Nat} {t xs : List Nat} (hz : 0 ∉ t) (h : (t ++ [0]).map some <+: m) (hl : t.length + xs.length + 1 ≤ m.length) :
    ∃ m', strcat m xs = .ok m' ∧ m'.length = m.length ∧ (t ++ xs ++ [0]).map some <+: m' := by
  have ht : t.map some <+: m := List.IsPrefix.trans ⟨[some 0], by simp⟩ h
  obtain ⟨m', e1, e2, e3⟩ := wr_ok (xs ++ [0]) m t ht (by simp only [List.length_append, List.length_singleton]; omega)
  refine ⟨m', ?_, e2, by simpa using e3⟩
  obtain ⟨r, rfl⟩ := h
  unfold strcat
  rw [strlen_ok t r hz]
  exact e1

theorem fill_ok : ∀ (l : List (List Nat)) (m : Mem Nat) (t : List Nat), (∀ a ∈ l, 0 ∉ a) → 0 ∉ t → (t ++ [0]).map some <+: m →
    t.length + (line l).length + 1 ≤ m.length → ∃ m', fill m l = .ok m' ∧ (t ++ line l ++ [0]).map some <+: m'
  | [], m, t, _, _, h, _ => ⟨m, rfl, by simpa [line] using h⟩
  | [a], m, t, hz, ht, h, hl => by
      have hq := quoted_nz (hz a (by simp))
      have hc := cstr_ok (quoted a) [] hq
      rw [List.append_nil] at hc
      simp only [line] at hl ⊢
      obtain ⟨m1, e1, e2, e3⟩ := strcat_ok ht h hl
      exact ⟨m1, by simp only [fill, quoteArg_ok, Res.bind, hc, e1, List.isEmpty_nil, if_true], e3⟩
  | a :: b :: l, m, t, hz, ht, h, hl => by
      have hq := quoted_nz (hz a (by simp))
      have hc := cstr_ok (quoted a) [] hq
      rw [List.append_nil] at hc
      simp only [line, List.length_append, List.length_cons] at hl
      obtain ⟨m1, e1, e2, e3⟩ := strcat_ok (xs := quoted a) ht h (by omega)
      have ht1 : 0 ∉ t ++ quoted a := by simp only [List.mem_append, not_or]; exact ⟨ht, hq⟩
      obtain ⟨m2, f1, f2, f3⟩ := strcat_ok (xs := [32]) ht1 e3 (by simp only [List.length_append, List.length_singleton]; omega)
      have ht2 : 0 ∉ t ++ quoted a ++ [32] := by simp only [List.mem_append, not_or]; exact ⟨ht1 |> fun h => by simpa using h, by simp⟩
      obtain ⟨m3, g1, g2⟩ := fill_ok (b :: l) m2 _ (fun x hx => hz x (by simp [hx])) ht2 f3
        (by simp only [List.length_append, List.length_singleton]; omega)
      refine ⟨m3, ?_, ?_⟩
      · rw [fill]
        simp only [quoteArg_ok, Res.bind, hc, e1, List.isEmpty_cons, Bool.false_eq_true, if_false, f1]
        exact g1
      · simpa [line] using g2

/-- C174: the command line is built within its memory, and is the quoted arguments with blanks between. -/
theorem line_ok (a : List Nat) (l : List (List Nat)) (h : ∀ x ∈ a :: l, 0 ∉ x) :
    ∃ m, cmdLine (a :: l) = .ok m ∧ cstr m = line (a :: l) := by
  unfold cmdLine
  rw [cmdLen_ok _ h]
  have hlen := line_length a l
  have hm : (Mem.malloc (sum (a :: l) + 1) : Mem Nat).length = sum (a :: l) + 1 := List.length_replicate
  obtain ⟨m1, a1, a2, a3⟩ := wr_ok [0] (Mem.malloc (sum (a :: l) + 1)) [] (by simp) (by rw [hm]; simp)
  simp only [List.length_nil] at a1
  simp only [Res.bind, a1]
  obtain ⟨m2, b1, r, b2⟩ := fill_ok (a :: l) m1 [] h (by simp) (by simpa using a3) (by rw [a2, hm]; simp only [List.length_nil]; omega)
  refine ⟨m2, b1, ?_⟩
  have hz : 0 ∉ line (a :: l) := by
    clear b2 b1 a3 a2 a1 hm hlen
    induction l generalizing a with
    | nil => exact quoted_nz (h a (by simp))
    | cons b l ih =>
        simp only [line, List.mem_append, List.mem_cons, not_or]
        exact ⟨quoted_nz (h a (by simp)), by omega, ih b (fun x hx => h x (by simp [hx]))⟩
  rw [← b2]
  simpa using cstr_ok (line (a :: l)) r hz

open Spec

/-- The runtime is in an argument, outside quotes, and has all of `x`. -/
def Has (s : St) (d : List (List Nat)) (x : List Nat) : Prop :=
  s.done = d ∧ s.mode ≠ .ins ∧ (∃ y, s.cur = some y ∧ y ++ List.replicate s.slashes 92 = x)

/-- It is inside quotes. -/
def Inside (s : St) (d : List (List Nat)) (x : List Nat) : Prop :=
  s.done = d ∧ s.mode = .ins ∧ (∃ y, s.cur = some y ∧ y ++ List.replicate s.slashes 92 = x)

theorem snoc_slash (y : List Nat) (n : Nat) : y ++ List.replicate (n + 1) 92 = y ++ List.replicate n 92 ++ [92] := by
  rw [List.replicate_succ', List.append_assoc]

/-- Between arguments. -/
def Between (s : St) (d : List (List Nat)) : Prop := s = ⟨d, none, .out, 0⟩

theorem feed_plain {s : St} {d : List (List Nat)} {x : List Nat} {c : Nat} (h : Has s d x) (h1 : c ≠ 34) (h2 : c ≠ 32) (h3 : c ≠ 9) :
    Has (feed s c) d (x ++ [c]) := by
  obtain ⟨hd, hm, y, hy, hx⟩ := h
  subst hx
  unfold feed
  by_cases hc : c = 92
  · subst hc
    simp only [if_true]
    refine ⟨hd, ?_, y, by simp [hy], snoc_slash _ _⟩
    show (if s.mode = .end_ then Mode.out else s.mode) ≠ .ins
    split
    · decide
    · exact hm
  · simp only [if_neg hc, if_neg h1]
    rw [if_neg (by rintro ⟨_, h | h⟩ <;> omega)]
    refine ⟨hd, ?_, _, rfl, by simp [hy]⟩
    show (if s.mode = .end_ then Mode.out else s.mode) ≠ .ins
    split
    · decide
    · exact hm

theorem feed_start {s : St} {d : List (List Nat)} {c : Nat} (h : Between s d) (h1 : c ≠ 34) (h2 : c ≠ 32) (h3 : c ≠ 9) :
    Has (feed s c) d [c] := by
  subst h
  have := feed_plain (s := ⟨d, some [], .out, 0⟩) (d := d) (x := []) (c := c) ⟨rfl, (fun h => nomatch h), [], rfl, rfl⟩ h1 h2 h3
  unfold feed at *
  by_cases hc : c = 92
  · simp only [if_pos hc] at *
    exact this
  · simp only [if_neg hc, if_neg h1] at *
    rw [if_neg (by rintro ⟨_, h | h⟩ <;> omega)] at *
    exact this

theorem feed_blank {s : St} {d : List (List Nat)} {x : List Nat} (h : Has s d x) : Between (feed s 32) (d ++ [x]) := by
  obtain ⟨hd, hm, y, hy, hx⟩ := h
  subst hx
  unfold feed
  simp only [Nat.reduceEqDiff, if_false]
  rw [if_pos ⟨hm, .inl trivial⟩, hy, hd]
  rfl

theorem feed_open {s : St} {d : List (List Nat)} (h : Between s d) : Inside (feed s 34) d [] ∧ (feed s 34).slashes = 0 := by
  subst h
  exact ⟨⟨rfl, rfl, [], by simp [feed], by simp [feed]⟩, rfl⟩

theorem feed_inside {s : St} {d : List (List Nat)} {x : List Nat} {c : Nat} (h : Inside s d x) (h1 : c ≠ 34) :
    Inside (feed s c) d (x ++ [c]) ∧ (c ≠ 92 → (feed s c).slashes = 0) ∧ (c = 92 → (feed s c).slashes = s.slashes + 1) := by
  obtain ⟨hd, hm, y, hy, hx⟩ := h
  subst hx
  unfold feed
  by_cases hc : c = 92
  · subst hc
    simp only [if_true]
    refine ⟨⟨hd, ?_, y, by simp [hy], snoc_slash _ _⟩, fun h => absurd rfl h, fun _ => trivial⟩
    show (if s.mode = .end_ then Mode.out else s.mode) = .ins
    rw [if_neg (by rw [hm]; decide), hm]
  · simp only [if_neg hc, if_neg h1]
    rw [if_neg (by rintro ⟨h, _⟩; exact h hm)]
    refine ⟨⟨hd, ?_, _, rfl, by simp [hy]⟩, fun _ => rfl, fun h => absurd h hc⟩
    show (if s.mode = .end_ then Mode.out else s.mode) = .ins
    rw [if_neg (by rw [hm]; decide), hm]

theorem feed_quote {s : St} {d : List (List Nat)} {x : List Nat} (h : Inside s d x) (h0 : s.slashes = 0) :
    Inside (feed (feed s 92) 34) d (x ++ [34]) ∧ (feed (feed s 92) 34).slashes = 0 := by
  obtain ⟨hd, hm, y, hy, hx⟩ := h
  obtain ⟨done, cur, mode, sl⟩ := s
  simp only at hd hm hy hx h0
  subst hd hm hy h0
  simp only [List.replicate_zero, List.append_nil] at hx
  subst hx
  exact ⟨⟨rfl, rfl, _, rfl, by simp [feed]⟩, rfl⟩

theorem feed_close {s : St} {d : List (List Nat)} {x : List Nat} (h : Inside s d x) (h0 : s.slashes = 0) :
    Has (feed s 34) d x := by
  obtain ⟨hd, hm, y, hy, hx⟩ := h
  obtain ⟨done, cur, mode, sl⟩ := s
  simp only at hd hm hy hx h0
  subst hd hm hy h0
  simp only [List.replicate_zero, List.append_nil] at hx
  subst hx
  exact ⟨rfl, (fun h => nomatch h), _, rfl, by simp [feed]⟩

/-- A text without quotes and blanks. -/
theorem plain_run : ∀ (a : List Nat) (s : St) (d : List (List Nat)) (x : List Nat), Has s d x → (∀ c ∈ a, c ≠ 34 ∧ c ≠ 32 ∧ c ≠ 9) →
    Has (a.foldl feed s) d (x ++ a)
  | [], s, d, x, h, _ => by simpa using h
  | c :: a, s, d, x, h, hc => by
      have h1 := hc c (by simp)
      have := plain_run a (feed s c) d (x ++ [c]) (feed_plain h h1.1 h1.2.1 h1.2.2) (fun e he => hc e (by simp [he]))
      simpa using this

/-- What the loop of `quote_arg` wrote, read inside quotes: no quote may follow the backslashes that are pending. -/
theorem escaped_run : ∀ (a : List Nat) (s : St) (d : List (List Nat)) (x : List Nat), Inside s d x →
    (s.slashes ≠ 0 → a.head? ≠ some 34) → (¬ ∃ u v, a = u ++ 92 :: 34 :: v) →
    Inside ((escaped a).foldl feed s) d (x ++ a) ∧
      ((∃ u c, a = u ++ [c] ∧ c ≠ 92) → ((escaped a).foldl feed s).slashes = 0) ∧
      ((a.getLast? = some 92) → (¬ ∃ u, a = u ++ [92, 92]) → (s.slashes = 0 ∨ a.length ≠ 1) → ((escaped a).foldl feed s).slashes = 1)
  | [], s, d, x, h, _, _ => by
      refine ⟨by simpa [escaped] using h, ?_, ?_⟩
      · rintro ⟨u, c, h, _⟩
        simp at h
      · intro h; simp at h
  | c :: a, s, d, x, h, hs, hno => by
      have hno' : ¬ ∃ u v, a = u ++ 92 :: 34 :: v := fun ⟨u, v, e⟩ => hno ⟨c :: u, v, by rw [e]; rfl⟩
      by_cases hc : c = 34
      · subst hc
        have h0 : s.slashes = 0 := Classical.byContradiction fun hh => hs hh rfl
        obtain ⟨f1, f2⟩ := feed_quote h h0
        obtain ⟨g1, g2, g3⟩ := escaped_run a (feed (feed s 92) 34) d (x ++ [34]) f1 (fun hh => absurd f2 hh) hno'
        simp only [escaped, if_pos, List.foldl_cons]
        refine ⟨by simpa using g1, ?_, ?_⟩
        · rintro ⟨u, e, he, hne⟩
          cases a with
          | nil => exact f2
          | cons b a =>
              cases u with
              | nil => simp at he
              | cons b' u =>
                  simp only [List.cons_append, List.cons.injEq] at he
                  exact g2 ⟨u, e, he.2, hne⟩
        · intro hl hn _
          cases a with
          | nil => simp at hl
          | cons b a =>
              exact g3 (by simpa using hl) (fun ⟨u, hu⟩ => hn ⟨34 :: u, by rw [hu]; rfl⟩) (.inl f2)
      · obtain ⟨f1, f2, f3⟩ := feed_inside h hc
        have hpend : (feed s c).slashes ≠ 0 → a.head? ≠ some 34 := by
          intro hh
          by_cases h92 : c = 92
          · subst h92
            intro ha
            cases a with
            | nil => simp at ha
            | cons b a =>
                simp only [List.head?_cons, Option.some.injEq] at ha
                subst ha
                exact hno ⟨[], a, rfl⟩
          · exact absurd (f2 h92) hh
        obtain ⟨g1, g2, g3⟩ := escaped_run a (feed s c) d (x ++ [c]) f1 hpend hno'
        simp only [escaped, if_neg hc, List.foldl_cons]
        refine ⟨by simpa using g1, ?_, ?_⟩
        · rintro ⟨u, e, he, hne⟩
          cases a with
          | nil =>
              cases u with
              | nil =>
                  simp only [List.nil_append, List.cons.injEq, and_true] at he
                  exact f2 (by rw [he]; exact hne)
              | cons b' u => simp at he
          | cons b a =>
              cases u with
              | nil => simp at he
              | cons b' u =>
                  simp only [List.cons_append, List.cons.injEq] at he
                  exact g2 ⟨u, e, he.2, hne⟩
        · intro hl hn hs0
          cases a with
          | nil =>
              simp only [List.getLast?_singleton, Option.some.injEq] at hl
              rcases hs0 with h0 | h0
              · have := f3 hl
                simp only [escaped, List.foldl_nil]
                omega
              · exact absurd rfl h0
          | cons b a =>
              refine g3 (by simpa using hl) (fun ⟨u, hu⟩ => hn ⟨c :: u, by rw [hu]; rfl⟩) ?_
              by_cases h92 : c = 92
              · right
                intro h1
                have : a = [] := by simpa using h1
                subst this
                simp only [List.getLast?_cons_cons, List.getLast?_singleton, Option.some.injEq] at hl
                subst hl h92
                exact hn ⟨[], rfl⟩
              · exact .inl (f2 h92)

theorem special_mem (c : Nat) : special c = true ↔ c ∈ [32, 9, 10, 11, 34] := by
  simp [special, or_assoc]

theorem quoted_run {s : St} {d : List (List Nat)} {a : List Nat} (h : Between s d) (ha : Survives a) :
    Has ((quoted a).foldl feed s) d a := by
  obtain ⟨hne, hq⟩ := ha
  unfold quoted
  by_cases hs : a.any special = false
  · rw [if_pos hs]
    have hp : ∀ c ∈ a, c ≠ 34 ∧ c ≠ 32 ∧ c ≠ 9 := by
      intro c hc
      have := List.any_eq_false.mp hs c hc
      rw [special_mem] at this
      simp only [List.mem_cons, List.not_mem_nil, or_false, not_or] at this
      omega
    cases a with
    | nil => exact absurd rfl hne
    | cons c a =>
        have h1 := hp c (by simp)
        simpa using plain_run a (feed s c) d [c] (feed_start h h1.1 h1.2.1 h1.2.2) (fun e he => hp e (by simp [he]))
  · rw [if_neg hs]
    have hsp : ∃ c ∈ a, c ∈ [32, 9, 10, 11, 34] := by
      rw [Bool.not_eq_false, List.any_eq_true] at hs
      obtain ⟨c, hc, h1⟩ := hs
      exact ⟨c, hc, (special_mem c).mp h1⟩
    obtain ⟨hn1, hn2⟩ := hq hsp
    obtain ⟨f1, f2⟩ := feed_open h
    obtain ⟨g1, g2, _⟩ := escaped_run a _ d [] f1 (fun hh => absurd f2 hh) hn1
    simp only [List.foldl_cons, List.foldl_append, List.foldl_nil]
    rw [List.nil_append] at g1
    refine feed_close g1 (g2 ?_)
    have hl := List.dropLast_concat_getLast hne
    refine ⟨a.dropLast, a.getLast hne, hl.symm, fun e => hn2 ⟨a.dropLast, ?_⟩⟩
    rw [← hl, e]
    simp

theorem line_run : ∀ (l : List (List Nat)) (a : List Nat) (s : St) (d : List (List Nat)), Between s d → (∀ x ∈ a :: l, Survives x) →
    ∃ d' x, d' ++ [x] = d ++ a :: l ∧ Has ((line (a :: l)).foldl feed s) d' x
  | [], a, s, d, h, ha => ⟨d, a, rfl, quoted_run h (ha a (by simp))⟩
  | b :: l, a, s, d, h, ha => by
      have h1 := feed_blank (quoted_run h (ha a (by simp)))
      obtain ⟨d', x, e, h2⟩ := line_run l b _ (d ++ [a]) h1 (fun x hx => ha x (by simp [hx]))
      refine ⟨d', x, by simpa using e, ?_⟩
      simpa [line] using h2

theorem args_line {a : List Nat} {l : List (List Nat)} (h : ∀ x ∈ a :: l, Survives x) : args (line (a :: l)) = a :: l := by
  obtain ⟨d', x, e, hd, _, y, hy, hx⟩ := line_run l a ⟨[], none, .out, 0⟩ [] rfl h
  unfold args
  simp only [hy, hd, hx]
  simpa using e

theorem args_blank (t : List Nat) : args (32 :: t) = args t := rfl

theorem name_quoted {a : List Nat} (h : 34 ∉ a) (rest : List Nat) (hr : rest = [] ∨ ∃ t, rest = 32 :: t) :
    name false (quoted a ++ rest) = (a, rest) := by
  have he : escaped a = a := by
    clear hr
    induction a with
    | nil => rfl
    | cons c a ih =>
        simp only [List.mem_cons, not_or] at h
        simp only [escaped, if_neg (fun e => h.1 (Eq.symm e)), ih h.2]
  have hend : name false rest = ([], rest) := by
    rcases hr with rfl | ⟨t, rfl⟩ <;> rfl
  unfold quoted
  by_cases hs : a.any special = false
  · rw [if_pos hs]
    clear he
    induction a with
    | nil => exact hend
    | cons c a ih =>
        simp only [List.mem_cons, not_or] at h
        have hc := List.any_eq_false.mp hs c (by simp)
        rw [special_mem] at hc
        simp only [List.mem_cons, List.not_mem_nil, or_false, not_or] at hc
        have := ih h.2 (by rw [List.any_cons, Bool.or_eq_false_iff] at hs; exact hs.2)
        simp only [List.cons_append, name]
        rw [if_neg hc.2.2.2.2, if_neg (by rintro ⟨_, h | h⟩; exact hc.1 h; exact hc.2.1 h), this]
  · rw [if_neg hs, he]
    simp only [List.cons_append, name, if_true]
    clear he hs
    induction a with
    | nil =>
        simp only [List.nil_append, List.singleton_append, name, if_true]
        exact hend
    | cons c a ih =>
        simp only [List.mem_cons, not_or] at h
        have := ih h.2
        simp only [List.cons_append, Bool.not_false, name] at this ⊢
        rw [if_neg (fun e => h.1 (Eq.symm e)), if_neg (by simp), this]

theorem line_cons (p : List Nat) (a : List Nat) (l : List (List Nat)) : line (p :: a :: l) = quoted p ++ 32 :: line (a :: l) := rfl

/-- C174, partly: a program gets the arguments that were given, unless one is empty or has a backslash before a quote or at its end and is quoted. -/
theorem received_ok_partial (p : List Nat) (l : List (List Nat)) (hp : 34 ∉ p) (h : ∀ a ∈ l, Survives a) : received (line (p :: l)) = p :: l := by
  cases l with
  | nil =>
      have := name_quoted hp [] (.inl rfl)
      rw [List.append_nil] at this
      simp only [received, line, this]
      rfl
  | cons a l =>
      rw [line_cons]
      simp only [received, name_quoted hp _ (.inr ⟨_, rfl⟩), args_blank, args_line h]

/-- C174, violated: a directory with a blank and a backslash at its end arrives with a quote instead of the backslash, for every such directory. -/
theorem trailing_slash_violated (p x : List Nat) (hp : 34 ∉ p) (hx : 34 ∉ x) (hb : 32 ∈ x) (hl : x.getLast? ≠ some 92) :
    received (line [p, x ++ [92]]) = [p, x ++ [34]] := by
  rw [line_cons]
  simp only [received, name_quoted hp _ (.inr ⟨_, rfl⟩), args_blank, line]
  congr 1
  have hsp : ¬ (x ++ [92]).any special = false := by
    rw [Bool.not_eq_false, List.any_eq_true]
    exact ⟨32, by simp [hb], rfl⟩
  have hno : ¬ ∃ u v, x ++ [92] = u ++ 92 :: 34 :: v := by
    rintro ⟨u, v, e⟩
    have : (34 : Nat) ∈ x ++ [92] := by rw [e]; simp
    simp only [List.mem_append, List.mem_singleton] at this
    rcases this with h | h
    · exact hx h
    · omega
  have hx0 : x ≠ [] := by intro e; rw [e] at hb; simp at hb
  obtain ⟨f1, f2⟩ := feed_open (s := ⟨[], none, .out, 0⟩) (d := []) rfl
  obtain ⟨g1, _, g3⟩ := escaped_run (x ++ [92]) _ [] [] f1 (fun hh => absurd f2 hh) hno
  have hs := g3 (by simp) (by
    rintro ⟨u, hu⟩
    have : x = u ++ [92] := by
      have := congrArg List.dropLast hu
      simpa using this
    rw [this] at hl
    simp at hl) (.inl f2)
  unfold quoted
  rw [if_neg hsp]
  unfold args
  simp only [List.foldl_cons, List.foldl_append, List.foldl_nil]
  generalize (escaped (x ++ [92])).foldl feed (feed ⟨[], none, .out, 0⟩ 34) = s at *
  obtain ⟨hd, hm, y, hy, hxy⟩ := g1
  obtain ⟨done, cur, mode, sl⟩ := s
  simp only at hd hm hy hxy hs
  subst hd hm hy hs
  have hyx : y = x := by
    have := congrArg List.dropLast hxy
    simpa using this
  subst hyx
  simp [feed]

/-- C174, violated: an argument that is empty is not received. -/
theorem empty_violated (p : List Nat) (hp : 34 ∉ p) : received (line [p, []]) = [p] := by
  rw [line_cons]
  simp only [received, name_quoted hp _ (.inr ⟨_, rfl⟩), args_blank]
  rfl

/-- C174, violated: `a\"b` arrives as `a\b`. -/
theorem slash_quote_violated (p : List Nat) (hp : 34 ∉ p) : received (line [p, [97, 92, 34, 98]]) = [p, [97, 92, 98]] := by
  rw [line_cons]
  simp only [received, name_quoted hp _ (.inr ⟨_, rfl⟩), args_blank]
  rfl

/-- `-DX="a b"` and `C:\a\b.c` survive. -/
theorem sample : Survives [45, 68, 88, 61, 34, 97, 32, 98, 34] ∧ Survives [67, 58, 92, 97, 92, 98, 46, 99] := by
  refine ⟨⟨by simp, fun _ => ⟨?_, ?_⟩⟩, ⟨by simp, ?_⟩⟩
  · rintro ⟨x, y, h⟩
    have : (92 : Nat) ∈ [45, 68, 88, 61, 34, 97, 32, 98, 34] := by rw [h]; simp
    simp at this
  · rintro ⟨x, h⟩
    have : (92 : Nat) ∈ [45, 68, 88, 61, 34, 97, 32, 98, 34] := by rw [h]; simp
    simp at this
  · rintro ⟨c, hc, h⟩
    simp only [List.mem_cons, List.not_mem_nil, or_false] at hc h
    omega

end Verif.WinArgs
