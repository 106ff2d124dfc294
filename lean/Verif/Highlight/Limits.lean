import Verif.Highlight.Screen

/-!
# C156–C158: where the line, the cursor, the brackets or the colours are not right
-/

namespace Verif.Highlight
open Verif.Forth Verif.Highlight.Spec

/-! ## the cursor -/

theorem columns_le (s : Str) : columns s ≤ s.length := List.length_filter_le ..

theorem columns_lt {s : Str} {c : Char} (h : c ∈ s) (hc : continues c = true) : columns s < s.length := by
  unfold columns
  rw [List.length_filter_lt_length_iff_exists]
  exact ⟨c, h, by simp [hc]⟩

/-- C156 fails: behind a character that is not ASCII the cursor is shown too far to the right (with a prompt in ASCII and a row
that is wide enough). -/
theorem cursor_violated {t : Term} (ht : t.esc = none) {prompt v buf : Str} (hp : Prompt prompt v) (hv : Ascii v)
    (hb : Typed buf) (pos : Nat) (hpos : pos ≤ buf.length) (hw : v.length + buf.length < t.width) (hv0 : v ≠ [])
    {c : Char} (hc : c ∈ buf.take pos) (hcc : continues c = true) :
    columns (v ++ buf.take pos) < (feed t (redraw prompt buf pos)).col := by
  have hty : Typed (v ++ buf) := fun c hc => by
    rcases List.mem_append.1 hc with h | h
    · exact hp.typed c h
    · exact hb c h
  have hvl : v.length ≠ 0 := fun h => hv0 (List.length_eq_zero_iff.1 h)
  have hrow := row_text (v ++ buf) { t with cells := [], col := 0 } [] ⟨ht, rfl, rfl⟩ hty
    (by have := columns_le (v ++ buf); rw [List.length_append] at this; simp only; omega) (fun _ => by
      cases v with
      | nil => exact absurd rfl hv0
      | cons c s =>
          have := hv c (by simp)
          simp only [List.cons_append, List.head?_cons, Option.all_some, continues]
          have h1 : ¬ 128 ≤ c.toNat := by omega
          simp [h1])
  have h1 := columns_lt hc hcc
  rw [List.length_take] at h1
  rw [redraw_feed ht hp hb, columns_append, columns_ascii hv]
  simp only [hrow.2.2.2]
  rw [if_pos (by omega)]
  omega

/-- `é` takes one column; the cursor behind it is shown two columns behind the prompt -/
example : continues (Char.ofNat 169) = true ∧ columns [Char.ofNat 195, Char.ofNat 169] = 1 := by decide

/-! ## long lines -/

theorem put_above (t : Term) (c : Char) : t.above.length ≤ (put t c).above.length ∧ (put t c).width = t.width := by
  unfold put
  repeat' split
  all_goals simp

theorem feed_above : ∀ (s : Str) (t : Term), t.esc = none → Typed s → t.above.length ≤ (feed t s).above.length
  | [], _, _, _ => Nat.le_refl _
  | c :: s, t, ht, hs => by
      rw [feed_cons, byte_typed ht (hs c (by simp)).1]
      exact Nat.le_trans (put_above t c).1 (feed_above s _ (by rw [put_esc, ht]) fun d hd => hs d (by simp [hd]))

theorem feed_overflow : ∀ (s : Str) (t : Term), t.esc = none → Ascii s → t.width < t.col + s.length →
    t.col ≤ t.width → t.above.length < (feed t s).above.length
  | [], t, _, _, h, h2 => by simp at h; omega
  | c :: s, t, ht, hs, h, h2 => by
      have hc := hs c (by simp)
      have hs' : Ascii s := fun d hd => hs d (by simp [hd])
      have hk : ¬ continues c = true := by
        have h1 : ¬ 128 ≤ c.toNat := by omega
        simp [continues, h1]
      rw [feed_cons, byte_typed ht hc.1]
      by_cases hw : t.col < t.width
      · have hp : put t c = { t with cells := t.cells.take t.col ++ [c] :: t.cells.drop (t.col + 1), col := t.col + 1 } := by
          unfold put; rw [if_neg hk, if_pos hw]
        have := feed_overflow s (put t c) (by rw [put_esc, ht]) hs' (by rw [hp]; simp only [List.length_cons] at *; omega)
          (by rw [hp]; simp only; omega)
        rw [hp] at this ⊢
        exact this
      · have hp : put t c = { t with above := t.above ++ [t.cells], cells := [[c]], col := 1 } := by
          unfold put; rw [if_neg hk, if_neg hw]
        have := feed_above s (put t c) (by rw [put_esc, ht]) (ascii_typed hs')
        rw [hp] at this ⊢
        simp only [List.length_append, List.length_cons, List.length_nil] at this
        omega

/-- C156 fails: if prompt and line are wider than the row, every redraw leaves another row above, so the beginning of the line is
shown again with every key. -/
theorem long_violated {t : Term} (ht : t.esc = none) {prompt v buf : Str} (hp : Prompt prompt v) (hv : Ascii v)
    (hb : Ascii buf) (pos : Nat) (hw : t.width < v.length + buf.length) :
    t.above.length < (feed t (redraw prompt buf pos)).above.length := by
  have hall : Ascii (v ++ buf) := fun c hc => by
    rcases List.mem_append.1 hc with h | h
    · exact hv c h
    · exact hb c h
  rw [redraw_feed ht hp (ascii_typed hb)]
  exact feed_overflow (v ++ buf) { t with cells := [], col := 0 } ht hall (by simpa using hw) (Nat.zero_le _)

/-! ## brackets in strings -/

theorem seek_none {c m : Char} : ∀ (s : Str) (n : Nat), m ∉ s → seek c m n s = none
  | [], _, _ => by rw [seek]
  | d :: s, n, h => by
      simp only [List.mem_cons, not_or] at h
      rw [seek, seek_none s _ h.2, if_neg (Ne.symm h.1), seek_none s _ h.2]
      simp

/-- C157 fails: a bracket in a string is counted, so the brackets around the string have no partner. -/
theorem string_violated (x y : Str) (hx : ∀ c ∈ x, c ≠ '(' ∧ c ≠ ')') (hy : ∀ c ∈ y, c ≠ '(' ∧ c ≠ ')') :
    matching ('(' :: (x ++ "\"(\"".toList ++ y ++ [')'])) 0 = none := by
  have hbal : ∀ s : Str, (∀ c ∈ s, c ≠ '(' ∧ c ≠ ')') → Balanced '(' ')' s := by
    intro s
    induction s with
    | nil => exact fun _ => .nil
    | cons c s ih => exact fun h => .other (h c (by simp)).1 (h c (by simp)).2 (ih fun d hd => h d (by simp [hd]))
  have hb : Balanced '(' ')' (x ++ ['"']) := (hbal x hx).append (.other (by decide) (by decide) .nil)
  have hb2 : Balanced '(' ')' ('"' :: y) := .other (by decide) (by decide) (hbal y hy)
  have e : x ++ "\"(\"".toList ++ y ++ [')'] = (x ++ ['"']) ++ ('(' :: (('"' :: y) ++ [')'])) := by simp
  unfold matching
  simp only [List.getElem?_cons_zero, show partner '(' = some (')', true) by decide, Nat.zero_add, List.drop_succ_cons, List.drop_zero]
  rw [e, seek_balanced (by decide) hb 0, seek, if_pos rfl, seek_balanced (by decide) hb2 1, seek, if_neg (by decide), if_pos rfl,
    if_neg (by decide), seek]
  rfl

/-! ## colours -/

/-- C158: a word that begins where a round begins is printed as a whole, with the colour of its kind. -/
theorem word_coloured (mk : Option (Nat × Nat)) (i : Nat) (c : Char) (s : Str) (hm : mk.any (fun p => i == p.1 || i == p.2) = false)
    (hc : isAlpha c = true ∨ c = '_') : step mk i c s =
      (((c :: s).takeWhile isWord).length, word ((c :: s).takeWhile isWord) ((c :: s).dropWhile isWord)) := by
  have hne : ∀ d : Char, isAlpha d = false → d ≠ '_' → c ≠ d := by
    intro d h1 h2 e
    subst e
    rcases hc with h | h
    · rw [h] at h1; exact absurd h1 (by simp)
    · exact h2 h
  have hnm : ∀ l : List Char, l.all (fun d => !isAlpha d && d != '_') = true → c ∉ l := by
    intro l h hm
    have := List.all_eq_true.1 h c hm
    simp only [Bool.and_eq_true, Bool.not_eq_true', bne_iff_ne, ne_eq] at this
    exact hne c this.1 this.2 rfl
  have hd : isDigit c = false := by
    cases h : isDigit c with
    | false => rfl
    | true =>
        exfalso
        unfold isDigit at h
        simp only [Bool.and_eq_true, decide_eq_true_eq] at h
        have h9 := UInt32.le_iff_toNat_le.1 (Char.le_def.1 h.2)
        have e9 : ('9' : Char).val.toNat = 57 := rfl
        rcases hc with hc | hc
        · unfold isAlpha isLower isUpper at hc
          simp only [Bool.or_eq_true, Bool.and_eq_true, decide_eq_true_eq] at hc
          rcases hc with hc | hc
          · have := UInt32.le_iff_toNat_le.1 (Char.le_def.1 hc.1)
            have e : ('a' : Char).val.toNat = 97 := rfl
            omega
          · have := UInt32.le_iff_toNat_le.1 (Char.le_def.1 hc.1)
            have e : ('A' : Char).val.toNat = 65 := rfl
            omega
        · subst hc; exact absurd h9 (by decide)
  unfold step
  rw [if_neg (by rw [hm]; simp), if_neg (fun h => hne '/' (by decide) (by decide) h.1),
    if_neg (fun h => hne ':' (by decide) (by decide) h.1), if_neg (by rw [hd]; simp),
    if_neg (fun h => h.elim (hne '"' (by decide) (by decide)) (hne '\'' (by decide) (by decide))),
    if_neg (hnm _ (by decide)), if_neg (hnm _ (by decide)), if_neg (hnm _ (by decide)),
    if_pos (by rcases hc with h | h <;> simp [h])]

/-- C158: exactly the keywords of the table have the colour of keywords. -/
theorem keyword_coloured (w after : Str) : wordColour w after = some "1;36" ↔ w ∈ keywords := by
  unfold wordColour
  by_cases h : w ∈ keywords
  · simp [h]
  · rw [if_neg h]
    constructor
    · intro h2
      repeat' split at h2
      all_goals exact absurd h2 (by simp)
    · exact fun h2 => absurd h2 h

/-- C158: a name that is not a keyword or type and stands before `(` has the colour of functions. -/
theorem call_coloured (w blanks rest : Str) (hk : w ∉ keywords) (ht : w ∉ types) (hb : ∀ c ∈ blanks, isSpace c = true) :
    wordColour w (blanks ++ '(' :: rest) = some "1;34" := by
  unfold wordColour
  have : (blanks ++ '(' :: rest).dropWhile isSpace = '(' :: rest := by
    induction blanks with
    | nil => rfl
    | cons c s ih =>
        rw [List.cons_append, List.dropWhile_cons, if_pos (hb c (by simp))]
        exact ih fun d hd => hb d (by simp [hd])
  rw [if_neg hk, if_neg ht, this]; simp

/-- C158: exactly the types of the table have the colour of types. -/
theorem type_coloured (w after : Str) : wordColour w after = some "1;33" ↔
    w ∈ ["void", "int", "char", "float", "double", "long", "short", "unsigned", "signed", "bool"].map String.toList := by
  have hk : ∀ w ∈ types, w ∉ keywords := by decide
  show _ ↔ w ∈ types
  unfold wordColour
  by_cases h : w ∈ types
  · rw [if_neg (hk w h)]; simp [h]
  · rw [if_neg h]
    constructor
    · intro h2
      repeat' split at h2
      all_goals exact absurd h2 (by simp)
    · exact fun h2 => absurd h2 h

/-- C158: other names that are no calls have the colour of constants if they are longer than one character, have a capital
letter and no small one, and no colour otherwise. -/
theorem constant_coloured (w after : Str) (hk : w ∉ keywords) (ht : w ∉ types)
    (ha : (after.dropWhile isSpace).head? ≠ some '(') :
    ((2 ≤ w.length ∧ (∀ c ∈ w, ¬ ('a' ≤ c ∧ c ≤ 'z')) ∧ ∃ c ∈ w, 'A' ≤ c ∧ c ≤ 'Z') ∧ wordColour w after = some "1;31") ∨
      (¬ (2 ≤ w.length ∧ (∀ c ∈ w, ¬ ('a' ≤ c ∧ c ≤ 'z')) ∧ ∃ c ∈ w, 'A' ≤ c ∧ c ≤ 'Z') ∧ wordColour w after = none) := by
  have e : (1 < w.length ∧ w.all (fun c => !isLower c) ∧ w.any isUpper) ↔
      (2 ≤ w.length ∧ (∀ c ∈ w, ¬ ('a' ≤ c ∧ c ≤ 'z')) ∧ ∃ c ∈ w, 'A' ≤ c ∧ c ≤ 'Z') := by
    simp [isLower, isUpper, Nat.succ_le_iff, Decidable.imp_iff_not_or]
  unfold wordColour
  rw [if_neg hk, if_neg ht, if_neg ha]
  by_cases h : (1 < w.length ∧ w.all (fun c => !isLower c) ∧ w.any isUpper)
  · exact .inl ⟨e.1 h, by rw [if_pos h]⟩
  · exact .inr ⟨fun h2 => h (e.2 h2), by rw [if_neg h]⟩

/-- Keywords of the language (README.md) the table does not have, and its types. -/
def unknownWords : List Str :=
  ["loop", "unless", "async", "await", "alias", "in", "string", "i8", "i16", "i32", "i64", "u8", "u16", "u32", "u64", "f32", "f64",
   "usize", "isize"].map String.toList

/-- C158 fails: these words are shown like any name: without a colour of their own, or as functions before `(`. -/
theorem words_violated (w after : Str) (hw : w ∈ unknownWords) :
    wordColour w after = none ∨ wordColour w after = some "1;34" := by
  have hk : ∀ w ∈ unknownWords, w ∉ keywords ∧ w ∉ types ∧ w.all (fun c => !isLower c) = false := by decide
  obtain ⟨h1, h2, h3⟩ := hk w hw
  unfold wordColour
  rw [if_neg h1, if_neg h2, h3]
  by_cases h : (after.dropWhile isSpace).head? = some '('
  · rw [if_pos h]; exact .inr rfl
  · rw [if_neg h]; simp

end Verif.Highlight
