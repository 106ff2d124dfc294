import Verif.Diag.Model

/-! # What error messages show (C159), and that colours change nothing (C160) -/

namespace Verif.Diag
open Verif Verif.Str Verif.Lexer

/-! ## escape sequences -/

theorem strip_plain {s : List Byte} (h : 27 ∉ s) : strip false s = s := by
  induction s with
  | nil => rfl
  | cons c s ih =>
    simp only [List.mem_cons, not_or] at h
    cases s with
    | nil => rfl
    | cons d s => rw [strip, if_neg (fun hh => h.1 hh.1.symm), ih h.2]

theorem strip_code {code rest : List Byte} (h : 109 ∉ code) : strip true (code ++ 109 :: rest) = strip false rest := by
  induction code with
  | nil => simp [strip]
  | cons c s ih =>
    simp only [List.mem_cons, not_or] at h
    rw [List.cons_append, strip, if_neg (fun hh => h.1 hh.symm), ih h.2]

theorem strip_sgr {code rest : List Byte} (h : 109 ∉ code) : strip false (sgr code ++ rest) = strip false rest := by
  have : sgr code ++ rest = 27 :: 91 :: (code ++ 109 :: rest) := by simp [sgr]
  rw [this, strip, if_pos ⟨rfl, rfl⟩, strip_code h]

theorem strip_text {s : List Byte} (h : 27 ∉ s) (rest : List Byte) : strip false (s ++ rest) = s ++ strip false rest := by
  induction s with
  | nil => rfl
  | cons c s ih =>
    simp only [List.mem_cons, not_or] at h
    rw [List.cons_append]
    cases hs : s ++ rest with
    | nil =>
      obtain ⟨h1, h2⟩ := List.append_eq_nil_iff.mp hs
      subst h1; subst h2; rfl
    | cons d r => rw [strip, if_neg (fun hh => h.1 hh.1.symm), ← hs, ih h.2]; rfl

theorem strip_reset (rest : List Byte) : strip false (reset ++ rest) = strip false rest := strip_sgr (by decide)
theorem strip_blue (rest : List Byte) : strip false (blue ++ rest) = strip false rest := strip_sgr (by decide)
theorem strip_bold (rest : List Byte) : strip false (bold ++ rest) = strip false rest := strip_sgr (by decide)
theorem strip_colour (lv : Level) (rest : List Byte) : strip false (lv.colour ++ rest) = strip false rest := by
  cases lv <;> exact strip_sgr (by decide)

/-- C160: text that contains no escape character goes into a file or a pipe as it is. -/
theorem write_text {s : List Byte} (tty : Bool) (h : 27 ∉ s) : write tty s = s := by
  cases tty
  · exact strip_plain h
  · rfl

/-- C160: the literal of a string without escape characters reaches the generated code. -/
theorem literal_kept {s : List Byte} (h : 27 ∉ s) : literal s = 34 :: s ++ [34] :=
  write_text false (by simp [h])

/-- C160: colours around a text disappear, and nothing else. -/
theorem write_coloured {code s : List Byte} (hc : 109 ∉ code) (h : 27 ∉ s) :
    write false (sgr code ++ s ++ reset) = s := by
  show strip false _ = s
  rw [List.append_assoc, strip_sgr hc, strip_text h]
  have : strip false reset = [] := by decide
  rw [this, List.append_nil]

example : write false (sgr [49, 59, 51, 49] ++ [104, 105] ++ reset) = [104, 105] ∧ write true (sgr [49] ++ [104]) = [27, 91, 49, 109, 104] := by
  decide

/-! ## numbers -/

theorem dec_digits (n : Nat) : ∀ c ∈ dec n, 48 ≤ c ∧ c ≤ 57 := by
  have hd : ∀ k, k < 10 → (48 : Byte) ≤ UInt8.ofNat (48 + k) ∧ UInt8.ofNat (48 + k) ≤ (57 : Byte) := by
    intro k hk
    rw [UInt8.le_iff_toNat_le, UInt8.le_iff_toNat_le, UInt8.toNat_ofNat']
    show 48 ≤ _ ∧ _ ≤ 57
    rw [Nat.mod_eq_of_lt (by omega)]
    omega
  induction n using Nat.strongRecOn with
  | _ n ih =>
    rw [dec]
    split
    · rename_i h; simpa using hd n h
    · intro c hc
      rcases List.mem_append.mp hc with hc | hc
      · exact ih _ (by omega) c hc
      · simp only [List.mem_singleton] at hc
        exact hc ▸ hd _ (Nat.mod_lt _ (by omega))

/-- C159: the digits of a line number denote it. -/
theorem dec_value (n : Nat) : (dec n).foldl (fun a c => a * 10 + (c.toNat - 48)) 0 = n := by
  induction n using Nat.strongRecOn with
  | _ n ih =>
    rw [dec]
    split
    · simp only [List.foldl_cons, List.foldl_nil, UInt8.toNat_ofNat']
      omega
    · rw [List.foldl_append, ih _ (by omega)]
      simp only [List.foldl_cons, List.foldl_nil, UInt8.toNat_ofNat']
      omega

theorem dec_length (n : Nat) (k : Nat) (hk : 0 < k) : (dec n).length ≤ k ↔ n < 10 ^ k := by
  induction k generalizing n with
  | zero => omega
  | succ k ih =>
    rw [dec]
    split
    · rename_i h
      have : 10 ≤ 10 ^ (k + 1) := by
        rw [Nat.pow_succ]; have := Nat.pow_pos (n := k) (show 0 < 10 by omega); omega
      simp; omega
    · rename_i h
      rw [List.length_append]
      simp only [List.length_cons, List.length_nil]
      by_cases hk0 : k = 0
      · subst hk0
        have : 0 < (dec (n / 10)).length := by
          rw [dec]; split <;> simp
        have h10 : 10 ^ (0 + 1) = 10 := rfl
        rw [h10]
        omega
      · have := ih (n / 10) (by omega)
        rw [Nat.pow_succ]
        omega

theorem not_mem_of_digits {s : List Byte} (h : ∀ c ∈ s, 48 ≤ c ∧ c ≤ 57) : (27 : Byte) ∉ s := by
  intro hm
  have := (h 27 hm).1
  exact absurd this (by decide)

theorem dec_no (n : Nat) : (27 : Byte) ∉ dec n := not_mem_of_digits (dec_digits n)

theorem dec3_no (n : Nat) : (27 : Byte) ∉ dec3 n := by
  unfold dec3
  simp only [List.mem_append, not_or, List.mem_replicate]
  exact ⟨dec_no n, fun h => absurd h.2 (by decide)⟩

/-! ## messages -/

theorem chunks_plain (lv : Level) {file msg ctx : List Byte} (line col : Nat) (hf : 27 ∉ file) (hm : 27 ∉ msg) (hc : 27 ∉ ctx) :
    ((chunks lv file msg ctx line col).map (strip false)).flatten = Spec.plain (Spec.rows lv file msg ctx line col) := by
  have hw : (27 : Byte) ∉ lv.word := by cases lv <;> decide
  have e0 : strip false reset = [] := by decide
  have e0b : strip false bold = [] := by decide
  have e1 : strip false (lv.colour ++ lv.word ++ reset ++ bold) = lv.word := by
    rw [List.append_assoc, List.append_assoc, strip_colour, strip_text hw, strip_reset, e0b, List.append_nil]
  have e3 : strip false (reset ++ [10]) = [10] := by decide
  have e4 : strip false (blue ++ [32, 32, 45, 45, 62, 32] ++ reset ++ file ++ 58 :: dec line ++ 58 :: dec col ++ [10]) =
      [32, 32, 45, 45, 62, 32] ++ file ++ 58 :: dec line ++ 58 :: dec col ++ [10] := by
    have hl := dec_no line
    have hd := dec_no col
    have : blue ++ [32, 32, 45, 45, 62, 32] ++ reset ++ file ++ 58 :: dec line ++ 58 :: dec col ++ [10] =
      blue ++ ([32, 32, 45, 45, 62, 32] ++ (reset ++ (file ++ 58 :: dec line ++ 58 :: dec col ++ [10]))) := by simp
    rw [this, strip_blue, strip_text (by decide), strip_reset, strip_plain (by simp [hf, hl, hd])]
    simp
  have e5 : strip false (blue ++ [32, 32, 32, 124, 10] ++ reset) = [32, 32, 32, 124, 10] := by decide
  have e6 : strip false (blue ++ dec3 line ++ [124, 32] ++ reset ++ ctx ++ [10]) = dec3 line ++ [124, 32] ++ ctx ++ [10] := by
    have hl := dec3_no line
    have : blue ++ dec3 line ++ [124, 32] ++ reset ++ ctx ++ [10] =
      blue ++ ((dec3 line ++ [124, 32]) ++ (reset ++ (ctx ++ [10]))) := by simp
    rw [this, strip_blue, strip_text (by simp [hl]), strip_reset, strip_plain (by simp [hc])]
    simp
  have e7 : strip false (blue ++ [32, 32, 32, 124, 32] ++ reset) = [32, 32, 32, 124, 32] := by decide
  have e8 : ((List.replicate (col - 1) [(32 : Byte)]).map (strip false)).flatten = List.replicate (col - 1) 32 := by
    rw [List.map_replicate]
    have : strip false [32] = [32] := rfl
    rw [this]
    generalize col - 1 = k
    induction k with
    | zero => rfl
    | succ k ih => rw [List.replicate_succ, List.flatten_cons, ih, List.replicate_succ]; rfl
  have e9 : strip false (lv.colour ++ [94, 32, 104, 101, 114, 101] ++ reset ++ [10]) = [94, 32, 104, 101, 114, 101, 10] := by
    cases lv <;> decide
  unfold chunks
  rw [List.map_append, List.map_append, List.map_append, List.flatten_append, List.flatten_append, List.flatten_append, e8]
  simp only [List.map_cons, List.map_nil, List.flatten_cons, List.flatten_nil, e1, e3, e4, e5, e6, e7, e9, strip_plain hm]
  simp only [List.append_assoc, List.cons_append, List.nil_append] at e5
  cases lv <;> simp [Spec.plain, Spec.rows, e5]

/-- C159, C160: what a message to a file or a pipe looks like, when neither the message nor the line contain escape characters. -/
theorem report_plain (lv : Level) {file msg src ctx : List Byte} {t : Tok} (hx : context src t.start t.col = .ok ctx)
    (hf : 27 ∉ file) (hm : 27 ∉ msg) (hc : 27 ∉ ctx) :
    report false lv file msg src t = .ok (Spec.plain (Spec.rows lv file msg ctx t.line t.col)) := by
  unfold report
  rw [hx]
  show Res.ok _ = _
  have : ∀ s, write false s = strip false s := fun _ => rfl
  rw [show (write false) = strip false from funext this, chunks_plain lv _ _ hf hm hc]

theorem strip_closed (lv : Level) {file msg ctx : List Byte} (line col : Nat) (hf : 27 ∉ file) (hm : 27 ∉ msg) (hc : 27 ∉ ctx)
    (c : List Byte) (h : c ∈ chunks lv file msg ctx line col) (rest : List Byte) :
    strip false (c ++ rest) = strip false c ++ strip false rest := by
  have hw : (27 : Byte) ∉ lv.word := by cases lv <;> decide
  have hl := dec_no line
  have hl3 := dec3_no line
  have hd := dec_no col
  have e0 : strip false reset = [] := by decide
  have e0b : strip false bold = [] := by decide
  -- a coloured text between plain ones
  have key : ∀ a b d : List Byte, 27 ∉ a → 27 ∉ b → 27 ∉ d → ∀ (k : Level ⊕ Unit) (r : List Byte),
      strip false ((match k with | .inl l => l.colour | .inr _ => blue) ++ (a ++ (reset ++ (b ++ r)))) = a ++ b ++ strip false r := by
    intro a b d ha hb _ k r
    cases k with
    | inl l => simp only []; rw [strip_colour, strip_text ha, strip_reset, strip_text hb, List.append_assoc]
    | inr _ => simp only []; rw [strip_blue, strip_text ha, strip_reset, strip_text hb, List.append_assoc]
  have bar : ∀ r, strip false (blue ++ [32, 32, 32, 124, 10] ++ reset ++ r) =
      strip false (blue ++ [32, 32, 32, 124, 10] ++ reset) ++ strip false r := by
    intro r
    have := key [32, 32, 32, 124, 10] [] [] (by decide) (by simp) (by simp) (.inr ()) r
    simp only [List.nil_append, List.append_nil] at this
    rw [List.append_assoc, List.append_assoc, this]
    rfl
  unfold chunks at h
  simp only [List.mem_append, List.mem_cons, List.not_mem_nil, or_false, List.mem_replicate] at h
  rcases h with (((h | h | h | h | h | h | h) | h) | h) | h
  · subst h
    rw [show lv.colour ++ lv.word ++ reset ++ bold ++ rest = lv.colour ++ (lv.word ++ (reset ++ (bold ++ rest))) by simp,
      show lv.colour ++ lv.word ++ reset ++ bold = lv.colour ++ (lv.word ++ (reset ++ bold)) by simp,
      strip_colour, strip_colour, strip_text hw, strip_text hw, strip_reset, strip_reset, strip_bold, e0b]
    simp
  · subst h; rw [strip_text hm, strip_plain hm]
  · subst h
    rw [List.append_assoc, strip_reset, strip_reset, strip_text (by decide)]; rfl
  · subst h
    have hn : (27 : Byte) ∉ file ++ 58 :: dec line ++ 58 :: dec col ++ [10] := by simp [hf, hl, hd]
    have := key [32, 32, 45, 45, 62, 32] (file ++ 58 :: dec line ++ 58 :: dec col ++ [10]) [] (by decide) hn (by simp) (.inr ())
    have h1 := this rest
    have h2 := this []
    simp only [strip, List.append_nil] at h2
    simp only [List.append_assoc, List.cons_append] at h1 h2 ⊢
    rw [h1, h2]
    simp
  · subst h; exact bar rest
  · subst h
    have := key (dec3 line ++ [124, 32]) (ctx ++ [10]) [] (by simp [hl3]) (by simp [hc]) (by simp) (.inr ())
    have h1 := this rest
    have h2 := this []
    simp only [strip, List.append_nil] at h2
    simp only [List.append_assoc, List.cons_append] at h1 h2 ⊢
    rw [h1, h2]
    simp
  · subst h
    have := key [32, 32, 32, 124, 32] [] [] (by decide) (by simp) (by simp) (.inr ()) rest
    simp only [List.nil_append, List.append_nil] at this
    rw [List.append_assoc, List.append_assoc, this]
    rfl
  · rw [h.2]; exact strip_text (by decide) rest
  · subst h
    have := key [94, 32, 104, 101, 114, 101] [10] [] (by decide) (by decide) (by simp) (.inl lv)
    have h1 := this rest
    have h2 := this []
    simp only [strip, List.append_nil] at h2
    simp only [List.append_assoc, List.cons_append] at h1 h2 ⊢
    rw [h1, h2]
    simp
  · cases lv <;> simp only [List.mem_cons, List.not_mem_nil, or_false, or_self] at h <;> (subst h; exact bar rest)

/-- C160: without its colours a message on a terminal is the message in a file. -/
theorem report_colours (lv : Level) {file msg src ctx : List Byte} {t : Tok} (hx : context src t.start t.col = .ok ctx)
    (hf : 27 ∉ file) (hm : 27 ∉ msg) (hc : 27 ∉ ctx) :
    ∃ out, report true lv file msg src t = .ok out ∧ report false lv file msg src t = .ok (strip false out) := by
  unfold report
  rw [hx]
  refine ⟨_, rfl, ?_⟩
  show Res.ok _ = Res.ok _
  congr 1
  have : ∀ cs : List (List Byte), (∀ c ∈ cs, ∀ r, strip false (c ++ r) = strip false c ++ strip false r) →
      (cs.map (write false)).flatten = strip false (cs.map (write true)).flatten := by
    intro cs h
    induction cs with
    | nil => rfl
    | cons c cs ih =>
      rw [List.map_cons, List.map_cons, List.flatten_cons, List.flatten_cons, ih (fun x hx => h x (by simp [hx]))]
      show strip false c ++ _ = strip false (c ++ _)
      rw [h c (by simp)]
  exact this _ (fun c hc' r => strip_closed lv _ _ hf hm hc c hc' r)

/-! ## the line and the caret -/

theorem lineBefore_suffix (src : List Byte) : ∀ p, Lexer.Spec.lineBefore src p <:+ src.take p ∧ 10 ∉ Lexer.Spec.lineBefore src p := by
  intro p
  unfold Lexer.Spec.lineBefore
  generalize src.take p = l
  have : ∀ (l acc done : List Byte), 10 ∉ acc → l.foldl Lexer.Spec.lineStep acc <:+ done ++ acc ++ l ∧ 10 ∉ l.foldl Lexer.Spec.lineStep acc := by
    intro l
    induction l with
    | nil => intro acc done h; exact ⟨⟨done, by simp⟩, h⟩
    | cons c l ih =>
      intro acc done h
      rw [List.foldl_cons]
      by_cases hc : c = 10
      · rw [show Lexer.Spec.lineStep acc c = [] from if_pos hc]
        have := ih [] (done ++ acc ++ [c]) (by simp)
        simpa using this
      · rw [show Lexer.Spec.lineStep acc c = acc ++ [c] from if_neg hc]
        have := ih (acc ++ [c]) done (by simp [h, Ne.symm hc])
        simpa using this
  simpa using this l [] [] (by simp)

/-- C159: when the column is right, the line that is shown is the line of the token. -/
theorem context_line {src : List Byte} {p : Nat} (hin : p ≤ src.length) :
    context src p (Lexer.Spec.colAt src p) = .ok (Spec.wholeLine src p) := by
  obtain ⟨⟨pre, hp⟩, _⟩ := lineBefore_suffix src p
  have hlen := congrArg List.length hp
  have hcol : Lexer.Spec.colAt src p - 1 = (Lexer.Spec.lineBefore src p).length := by unfold Lexer.Spec.colAt; omega
  unfold context
  rw [hcol]
  rw [List.length_append, List.length_take, Nat.min_eq_left hin] at hlen
  rw [if_neg (by omega)]
  unfold Spec.wholeLine
  have : p - (Lexer.Spec.lineBefore src p).length = pre.length := by omega
  rw [this, ← hp, List.drop_left]

/-- The line is a part of the text between newlines. -/
theorem wholeLine_spec {src : List Byte} {p : Nat} (hin : p ≤ src.length) :
    ∃ a b, src = a ++ Spec.wholeLine src p ++ b ∧ 10 ∉ Spec.wholeLine src p ∧ a.length ≤ p ∧ p ≤ a.length + (Spec.wholeLine src p).length ∧
      (a = [] ∨ a.getLast? = some 10) ∧ (b = [] ∨ b.head? = some 10) := by
  have hb : ∀ l : List Byte, ∃ a, l = a ++ l.foldl Lexer.Spec.lineStep [] ∧ (a = [] ∨ a.getLast? = some 10) := by
    have : ∀ (l acc done : List Byte), (done = [] ∨ done.getLast? = some 10) →
        ∃ a, done ++ acc ++ l = a ++ l.foldl Lexer.Spec.lineStep acc ∧ (a = [] ∨ a.getLast? = some 10) := by
      intro l
      induction l with
      | nil => intro acc done h; exact ⟨done, by simp, h⟩
      | cons c l ih =>
        intro acc done h
        rw [List.foldl_cons]
        by_cases hc : c = 10
        · rw [show Lexer.Spec.lineStep acc c = [] from if_pos hc]
          obtain ⟨a, h1, h2⟩ := ih [] (done ++ acc ++ [c]) (.inr (by simp [hc]))
          exact ⟨a, by simpa using h1, h2⟩
        · rw [show Lexer.Spec.lineStep acc c = acc ++ [c] from if_neg hc]
          obtain ⟨a, h1, h2⟩ := ih (acc ++ [c]) done h
          exact ⟨a, by simpa using h1, h2⟩
    intro l
    simpa using this l [] [] (.inl rfl)
  obtain ⟨a, ha, hal⟩ := hb (src.take p)
  have hs : src.drop p = (src.drop p).takeWhile (· ≠ 10) ++ (src.drop p).dropWhile (· ≠ 10) := List.takeWhile_append_dropWhile.symm
  have hlen := congrArg List.length ha
  rw [List.length_append, List.length_take, Nat.min_eq_left hin] at hlen
  refine ⟨a, (src.drop p).dropWhile (· ≠ 10), ?_, ?_, by omega, ?_, hal, ?_⟩
  · unfold Spec.wholeLine Lexer.Spec.lineBefore
    rw [← List.append_assoc, ← ha, List.append_assoc, ← hs, List.take_append_drop]
  · unfold Spec.wholeLine
    rw [List.mem_append, not_or]
    refine ⟨(lineBefore_suffix src p).2, fun hm => ?_⟩
    have := List.all_takeWhile (p := fun x : Byte => decide (x ≠ 10)) (l := src.drop p)
    have := List.all_eq_true.mp this 10 hm
    simp at this
  · unfold Spec.wholeLine Lexer.Spec.lineBefore
    rw [List.length_append]; omega
  · cases h : (src.drop p).dropWhile (· ≠ 10) with
    | nil => exact .inl rfl
    | cons c r =>
      right
      have := List.head?_dropWhile_not (fun x : Byte => decide (x ≠ 10)) (src.drop p)
      rw [h] at this
      simp at this
      simp [this]

theorem lex_inside {emit : Bool} {src : List Byte} (hz : 0 ∉ src) {ts : List Tok} (h : lex emit src = .ok ts) {t : Tok} (ht : t ∈ ts) :
    t.start ≤ src.length := by
  rcases lexFrom_spec emit src hz (src.length + 1) init (Nat.zero_le _) (by simp [init]) with ⟨ts', h1, hc, _⟩ | ⟨h1, _⟩
  · rw [lex, h1] at h
    cases h
    rcases Covers.sorted _ _ _ hc with ⟨h3, _⟩ | h0
    · have := (h3 t ht).2
      simp [init] at this
      omega
    · rw [List.length_eq_zero_iff.1 h0] at ht; exact absurd ht (by simp)
  · rw [lex, h1] at h; cases h

/-- C159 (partial): the message at a token of a file shows the number of its line and column, the whole line, and the caret.
Missing: lines with block comments before the token and newlines in character literals (the columns are wrong, see
`comment_violated`), and escape characters (see `line_violated`). -/
theorem report_token_partial {emit : Bool} {src : List Byte} (hz : 0 ∉ src) {ts : List Tok} (h : lex emit src = .ok ts)
    (hch : ∀ t ∈ ts, t.kind = .char → 10 ∉ Lexer.Spec.textOf src t) {t : Tok} (ht : t ∈ ts) (hk : t.kind ≠ .eof)
    (hb : Lexer.Spec.NoBlock (Lexer.Spec.lineBefore src t.start)) (lv : Level) {file msg : List Byte} (hf : 27 ∉ file) (hm : 27 ∉ msg)
    (hc : 27 ∉ Spec.wholeLine src t.start) :
    report false lv file msg src t = .ok (Spec.plain (Spec.rows lv file msg (Spec.wholeLine src t.start)
      (Lexer.Spec.lineAt src t.start) (Lexer.Spec.colAt src t.start))) := by
  have hcol := lex_columns_partial emit src hz ts h hch t ht hk hb
  have hx := context_line (lex_inside hz h ht)
  rw [← hcol] at hx
  rw [report_plain lv hx hf hm hc, hcol, lex_lines_partial emit src hz ts h hch t ht]

theorem screen_printable {s : List Byte} (h : ∀ c ∈ s, 32 ≤ c ∧ c < 127) : ∀ k, Spec.screen k s = k + s.length := by
  induction s with
  | nil => intro k; rfl
  | cons c s ih =>
    intro k
    have hc := h c (by simp)
    have h9 : c ≠ 9 := fun he => absurd (he ▸ hc.1) (by decide)
    have h128 : ¬ (128 ≤ c ∧ c < 192) := by
      rintro ⟨h1, _⟩
      have h2 := hc.2
      rw [UInt8.le_iff_toNat_le] at h1
      rw [UInt8.lt_iff_toNat_lt] at h2
      simp at h1 h2
      omega
    rw [Spec.screen, if_neg h9, if_neg h128, ih (fun x hx => h x (by simp [hx])), List.length_cons]
    omega

theorem dec_printable (n : Nat) : ∀ c ∈ dec n, 32 ≤ c ∧ c < 127 := by
  intro c hc
  have := dec_digits n c hc
  rw [UInt8.le_iff_toNat_le, UInt8.le_iff_toNat_le] at this
  rw [UInt8.le_iff_toNat_le, UInt8.lt_iff_toNat_lt]
  simp at this ⊢
  omega

theorem dec3_printable (n : Nat) : ∀ c ∈ dec3 n, 32 ≤ c ∧ c < 127 := by
  intro c hc
  unfold dec3 at hc
  rcases List.mem_append.mp hc with hc | hc
  · exact dec_printable n c hc
  · rw [(List.mem_replicate.mp hc).2]; decide

theorem dec3_length (n : Nat) : (dec3 n).length = max 3 (dec n).length := by
  unfold dec3
  rw [List.length_append, List.length_replicate]
  omega

/-- The column on the screen where a token of the line begins, and that of the caret below it. -/
theorem columns {line col : Nat} {pre : List Byte} (hp : ∀ c ∈ pre, 32 ≤ c ∧ c < 127) (hcol : col - 1 = pre.length) :
    Spec.screen 0 (dec3 line ++ [124, 32] ++ pre) =
      Spec.screen 0 ([32, 32, 32, 124, 32] ++ List.replicate (col - 1) 32) + ((dec line).length - 3) := by
  rw [screen_printable, screen_printable]
  · simp only [List.length_append, List.length_cons, List.length_nil, List.length_replicate, dec3_length]
    omega
  · intro c hc
    rcases List.mem_append.mp hc with hc | hc
    · exact (by decide : ∀ c ∈ ([32, 32, 32, 124, 32] : List Byte), 32 ≤ c ∧ c < 127) c hc
    · rw [(List.mem_replicate.mp hc).2]; decide
  · intro c hc
    rcases List.mem_append.mp hc with hc | hc
    · rcases List.mem_append.mp hc with hc | hc
      · exact dec3_printable _ c hc
      · exact (by decide : ∀ c ∈ ([124, 32] : List Byte), 32 ≤ c ∧ c < 127) c hc
    · exact hp c hc

/-- C159: in the first 999 lines the caret stands below the first character of the token, when the characters before it
are printable ones of ASCII. -/
theorem caret_below {src : List Byte} {p line : Nat} (hl : line < 1000) (hp : ∀ c ∈ Lexer.Spec.lineBefore src p, 32 ≤ c ∧ c < 127) :
    Spec.screen 0 (dec3 line ++ [124, 32] ++ Lexer.Spec.lineBefore src p) =
      Spec.screen 0 ([32, 32, 32, 124, 32] ++ List.replicate (Lexer.Spec.colAt src p - 1) 32) := by
  rw [columns (col := Lexer.Spec.colAt src p) hp (by unfold Lexer.Spec.colAt; omega)]
  have := (dec_length line 3 (by omega)).mpr hl
  omega

/-- `if x⏎  + y` with a mistake at `y`. -/
example : report false .error [102] [109] [105, 102, 32, 120, 10, 32, 32, 43, 32, 121] ⟨.ident, 9, 1, 2, 5⟩ =
    .ok ([101, 114, 114, 111, 114, 58, 32, 109, 10,
      32, 32, 45, 45, 62, 32, 102, 58, 50, 58, 53, 10,
      32, 32, 32, 124, 10,
      50, 32, 32, 124, 32, 32, 32, 43, 32, 121, 10,
      32, 32, 32, 124, 32, 32, 32, 32, 32, 94, 32, 104, 101, 114, 101, 10,
      32, 32, 32, 124, 10]) := by decide +kernel

end Verif.Diag
