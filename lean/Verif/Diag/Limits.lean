import Verif.Diag.Props

/-! # Where error messages are wrong (C159, C160) -/

namespace Verif.Diag
open Verif Verif.Str Verif.Lexer

theorem screen_append (a b : List Byte) : ∀ k, Spec.screen k (a ++ b) = Spec.screen (Spec.screen k a) b := by
  induction a with
  | nil => intro k; rfl
  | cons c a ih => intro k; rw [List.cons_append, Spec.screen, Spec.screen, ih]

/-- C159 refuted: from line 1000 on the caret stands to the left of the token, by as many columns as the number of the line
has digits beyond three. -/
theorem long_number_violated {src : List Byte} {p line : Nat} (hl : 1000 ≤ line)
    (hp : ∀ c ∈ Lexer.Spec.lineBefore src p, 32 ≤ c ∧ c < 127) :
    Spec.screen 0 ([32, 32, 32, 124, 32] ++ List.replicate (Lexer.Spec.colAt src p - 1) 32) <
      Spec.screen 0 (dec3 line ++ [124, 32] ++ Lexer.Spec.lineBefore src p) := by
  rw [columns (col := Lexer.Spec.colAt src p) hp (by unfold Lexer.Spec.colAt; omega)]
  have : ¬ (dec line).length ≤ 3 := fun h => by
    have := (dec_length line 3 (by omega)).mp h
    omega
  omega

theorem screen_tabs : ∀ n k, Spec.screen (8 * k) (List.replicate n 9) = 8 * (k + n) := by
  intro n
  induction n with
  | zero => intro k; rfl
  | succ n ih =>
    intro k
    rw [List.replicate_succ, Spec.screen, if_pos rfl, show (8 * k / 8 + 1) * 8 = 8 * (k + 1) by omega, ih]
    omega

/-- C159 refuted: in a line that is indented with tabs the caret stands to the left of the token: the line is printed with
its tabs, the caret is moved by one space for each. -/
theorem tabs_violated {line n : Nat} (hl : line < 1000) :
    Spec.screen 0 (dec3 line ++ [124, 32] ++ List.replicate (n + 1) 9) = 8 * (n + 1) ∧
      Spec.screen 0 ([32, 32, 32, 124, 32] ++ List.replicate (n + 2 - 1) 32) = n + 6 ∧ n + 6 < 8 * (n + 1) := by
  refine ⟨?_, ?_, by omega⟩
  · rw [screen_append]
    have h3 : Spec.screen 0 (dec3 line ++ [124, 32]) = 5 := by
      rw [screen_printable]
      · have := (dec_length line 3 (by omega)).mpr hl
        simp only [List.length_append, List.length_cons, List.length_nil, dec3_length]
        omega
      · intro c hc
        rcases List.mem_append.mp hc with hc | hc
        · exact dec3_printable _ c hc
        · exact (by decide : ∀ c ∈ ([124, 32] : List Byte), 32 ≤ c ∧ c < 127) c hc
    rw [h3, List.replicate_succ, Spec.screen, if_pos rfl, show (5 / 8 + 1) * 8 = 8 * 1 by omega, screen_tabs]
    omega
  · rw [screen_printable]
    · simp
    · intro c hc
      rcases List.mem_append.mp hc with hc | hc
      · exact (by decide : ∀ c ∈ ([32, 32, 32, 124, 32] : List Byte), 32 ≤ c ∧ c < 127) c hc
      · rw [(List.mem_replicate.mp hc).2]; decide

/-- C159 refuted: behind `é` the caret stands one column to the right of the token. -/
theorem utf8_violated : Spec.screen 0 (dec3 1 ++ [124, 32] ++ [0xC3, 0xA9]) = 6 ∧
    Spec.screen 0 ([32, 32, 32, 124, 32] ++ List.replicate (Lexer.Spec.colAt [0xC3, 0xA9, 43] 2 - 1) 32) = 7 := by
  decide +kernel

/-- C159 refuted: of the line `/**/a` with a mistake at `a` only `a` is shown, and as column 1. -/
theorem comment_violated : ∃ ts t, lex false [47, 42, 42, 47, 97] = .ok ts ∧ t ∈ ts ∧ t.start = 4 ∧
    context [47, 42, 42, 47, 97] t.start t.col = .ok [97] ∧ Spec.wholeLine [47, 42, 42, 47, 97] t.start = [47, 42, 42, 47, 97] :=
  ⟨_, ⟨.ident, 4, 1, 1, 1⟩, rfl, by decide +kernel, rfl, by decide +kernel, by decide +kernel⟩

/-- C159 refuted: behind a character literal with a newline two lines are shown as one. -/
theorem char_violated : ∃ ts t, lex false [39, 10, 39, 97] = .ok ts ∧ t ∈ ts ∧ t.start = 3 ∧
    context [39, 10, 39, 97] t.start t.col = .ok [39, 10, 39, 97] ∧ Spec.wholeLine [39, 10, 39, 97] t.start = [39, 97] :=
  ⟨_, ⟨.ident, 3, 1, 1, 4⟩, rfl, by decide +kernel, rfl, by decide +kernel, by decide +kernel⟩

theorem strip_open {s : List Byte} (h : 109 ∉ s) : strip true s = [] := by
  induction s with
  | nil => rfl
  | cons c s ih =>
    simp only [List.mem_cons, not_or] at h
    rw [strip, if_neg (fun hh => h.1 hh.symm), ih h.2]

/-- C160 refuted: an escape character followed by `[` in a text is taken for a colour; everything up to the next `m`, or
to the end, is missing. -/
theorem text_violated {a b : List Byte} (ha : 27 ∉ a) (hb : 109 ∉ b) : write false (a ++ 27 :: 91 :: b) = a := by
  show strip false _ = a
  rw [strip_text ha, strip, if_pos ⟨rfl, rfl⟩, strip_open hb, List.append_nil]

/-- C160 refuted: a string literal that contains the two characters loses what follows up to an `m`: its colours, say. -/
theorem literal_violated {a b c : List Byte} (ha : 27 ∉ a) (hb : 109 ∉ b) (hc : 27 ∉ c) :
    literal (a ++ 27 :: 91 :: (b ++ 109 :: c)) = 34 :: (a ++ c) ++ [34] := by
  show strip false _ = _
  have : 34 :: (a ++ 27 :: 91 :: (b ++ 109 :: c)) ++ [34] = (34 :: a) ++ 27 :: 91 :: (b ++ 109 :: (c ++ [34])) := by simp
  rw [this, strip_text (by simp [ha]), strip, if_pos ⟨rfl, rfl⟩, strip_code hb, strip_plain (by simp [hc])]
  simp

/-- C160 refuted: without an `m` behind them even the closing quote is missing: the generated code is not C. -/
theorem literal_open_violated {a b : List Byte} (ha : 27 ∉ a) (hb : 109 ∉ b) : literal (a ++ 27 :: 91 :: b) = 34 :: a := by
  show strip false _ = _
  have : 34 :: (a ++ 27 :: 91 :: b) ++ [34] = (34 :: a) ++ 27 :: 91 :: (b ++ [34]) := by simp
  rw [this, strip_text (by simp [ha]), strip, if_pos ⟨rfl, rfl⟩, strip_open (by simp [hb]), List.append_nil]

/-- C159 refuted: of a line with such characters only the beginning is shown, and the bar below stands in the same row. -/
theorem line_violated {a b : List Byte} (line : Nat) (ha : 27 ∉ a) (hb : 109 ∉ b) :
    write false (blue ++ dec3 line ++ [124, 32] ++ reset ++ (a ++ 27 :: 91 :: b) ++ [10]) = dec3 line ++ [124, 32] ++ a := by
  show strip false _ = _
  have hl := dec3_no line
  have : blue ++ dec3 line ++ [124, 32] ++ reset ++ (a ++ 27 :: 91 :: b) ++ [10] =
    blue ++ ((dec3 line ++ [124, 32]) ++ (reset ++ (a ++ 27 :: 91 :: (b ++ [10])))) := by simp
  rw [this, strip_blue, strip_text (by simp [hl]), strip_reset, strip_text ha, strip, if_pos ⟨rfl, rfl⟩, strip_open (by simp [hb])]
  simp

end Verif.Diag
