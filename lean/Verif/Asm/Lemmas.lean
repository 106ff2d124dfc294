import Verif.Asm.Model

/-!
# Lemmas on inline assembly
-/

namespace Verif.Asm

open Spec

/-! ## Parsing -/

/-- The tokens that end the template. -/
def Ends (ts : List Tok) : Prop := ∃ t r, ts = t :: r ∧ (t.kind = .colon ∨ t.kind = .rbrace)

theorem body_end {ts : List Tok} (h : Ends ts) (code : List Char) :
    body .top code ts = .ok (code, ts) := by
  obtain ⟨t, r, rfl, h | h⟩ := h <;> simp [body, h]

theorem body_end_args {ts : List Tok} (h : Ends ts) (code : List Char) :
    body .args code ts = .ok (code, ts) := by
  obtain ⟨t, r, rfl, h | h⟩ := h <;> simp [body, h]

theorem strip (l : List Char) :
    (('"' :: (l ++ ['"'])).tail.take (('"' :: (l ++ ['"'])).length - 2)) = l := by simp

theorem body_strings (ls : List (List Char)) (code : List Char) {ts : List Tok} (h : Ends ts) :
    body .top code (ls.map (fun l => (⟨.str, '"' :: (l ++ ['"'])⟩ : Tok)) ++ ts) =
      .ok (ls.foldl addLine code, ts) := by
  induction ls generalizing code with
  | nil => exact body_end h code
  | cons l r ih =>
    rw [List.map_cons, List.cons_append, body]
    simp only
    rw [strip, ih]
    rfl

theorem foldl_addLine (r : List (List Char)) (code : List Char) (h : code ≠ []) :
    r.foldl addLine code = joined (code :: r) := by
  induction r generalizing code with
  | nil => rfl
  | cons x r ih =>
    rw [List.foldl_cons, ih _ (by simp [addLine, h])]
    cases r with
    | nil => simp [addLine, h, joined]
    | cons y r => simp [addLine, h, joined]

theorem foldl_joined (ls : List (List Char)) (h : ls.head? ≠ some []) :
    ls.foldl addLine [] = joined ls := by
  cases ls with
  | nil => rfl
  | cons x r =>
    rw [List.foldl_cons, show addLine [] x = x by simp [addLine]]
    apply foldl_addLine
    intro hx; subst hx; simp at h

theorem paren_role (k : Kind) (w v : List Char) (r : List Tok) :
    paren k (⟨.lparen, ['(']⟩ :: ⟨k, v⟩ :: ⟨.rparen, w⟩ :: r) = some v := by simp [paren]

theorem outputs_end {ts : List Tok} (h : Ends ts) (acc) : outputs acc ts = .ok (acc, ts) := by
  obtain ⟨t, r, rfl, h | h⟩ := h <;> rw [outputs] <;> simp [h]

theorem inputs_end {ts : List Tok} (h : Ends ts) (acc) : inputs acc ts = .ok (acc, ts) := by
  obtain ⟨t, r, rfl, h | h⟩ := h <;> rw [inputs] <;> simp [h]

theorem outputs_role (w v : List Char) (acc) (r : List Tok) :
    outputs acc (roleToks w v ++ r) = outputs (acc ++ [(w, v)]) r := by
  simp only [roleToks, List.cons_append, List.nil_append]
  rw [outputs]
  simp only [paren_role]
  rfl

theorem outputs_all (os : List (List Char × List Char)) (acc) {ts : List Tok} (h : Ends ts) :
    outputs acc (separated (os.map fun o => roleToks o.1 o.2) ++ ts) = .ok (acc ++ os, ts) := by
  induction os generalizing acc with
  | nil => simp [separated, outputs_end h]
  | cons o r ih =>
    cases r with
    | nil =>
      simp only [List.map_cons, List.map_nil, separated]
      rw [outputs_role, outputs_end h]
    | cons p r =>
      simp only [List.map_cons, separated, List.append_assoc, List.cons_append]
      rw [outputs_role, outputs]
      simp only
      have h2 := ih (acc ++ [(o.1, o.2)])
      simp only [List.map_cons] at h2
      rw [h2]
      simp

theorem inputs_role (v : List Char) (acc) (r : List Tok) :
    inputs acc (roleToks "in".toList v ++ r) = inputs (acc ++ [v]) r := by
  simp only [roleToks, List.cons_append, List.nil_append]
  rw [inputs]
  simp only [paren_role]
  rfl

theorem inputs_all (vs : List (List Char)) (acc) {ts : List Tok} (h : Ends ts) :
    inputs acc (separated (vs.map fun v => roleToks "in".toList v) ++ ts) = .ok (acc ++ vs, ts) := by
  induction vs generalizing acc with
  | nil => simp [separated, inputs_end h]
  | cons o r ih =>
    cases r with
    | nil =>
      simp only [List.map_cons, List.map_nil, separated]
      rw [inputs_role, inputs_end h]
    | cons p r =>
      simp only [List.map_cons, separated, List.append_assoc, List.cons_append]
      rw [inputs_role, inputs]
      simp only
      have h2 := ih (acc ++ [o])
      simp only [List.map_cons] at h2
      rw [h2]
      simp

theorem clobbers_role (s : List Char) (acc) (r : List Tok) :
    clobbers acc (clobToks s ++ r) = clobbers (acc ++ [s]) r := by
  simp only [clobToks, List.cons_append, List.nil_append]
  rw [clobbers]
  simp only [paren_role, strip]
  rfl

theorem clobbers_end (acc) (r : List Tok) :
    clobbers acc (⟨.rbrace, ['}']⟩ :: r) = .ok (acc, ⟨.rbrace, ['}']⟩ :: r) := by
  rw [clobbers]

theorem clobbers_all (vs : List (List Char)) (acc) (ts : List Tok) :
    clobbers acc (separated (vs.map clobToks) ++ ⟨.rbrace, ['}']⟩ :: ts) =
      .ok (acc ++ vs, ⟨.rbrace, ['}']⟩ :: ts) := by
  induction vs generalizing acc with
  | nil => simp [separated, clobbers_end]
  | cons o r ih =>
    cases r with
    | nil =>
      simp only [List.map_cons, List.map_nil, separated]
      rw [clobbers_role, clobbers_end]
    | cons p r =>
      simp only [List.map_cons, separated, List.append_assoc, List.cons_append]
      rw [clobbers_role, clobbers]
      simp only
      have h2 := ih (acc ++ [o])
      simp only [List.map_cons] at h2
      rw [h2]
      simp

theorem ends_rbrace (r : List Tok) : Ends (⟨.rbrace, ['}']⟩ :: r) := ⟨_, _, rfl, .inr rfl⟩
theorem ends_colon (r : List Tok) : Ends (colonTok :: r) := ⟨_, _, rfl, .inl rfl⟩

/-- The node that a block should become. -/
def nodeOf (b : Block) : Node :=
  ⟨joined (b.lines.map text), b.vol, b.outs.map fun o => (o.1.word, o.2), b.ins, b.clobs⟩

theorem atColon_colon (r : List Tok) : atColon (⟨.colon, [':']⟩ :: r) = true := rfl

theorem sections_read (code : List Char) (vol : Bool) (b : Block) (k : Nat) (hk : Covers b k)
    (r : List Tok) :
    sections code vol (sectionToks b k ++ ⟨.rbrace, ['}']⟩ :: r) =
      .ok (⟨code, vol, b.outs.map fun o => (o.1.word, o.2), b.ins, b.clobs⟩, r) := by
  have ho := fun (ts : List Tok) (h : Ends ts) =>
    outputs_all (b.outs.map fun o => (o.1.word, o.2)) [] h
  simp only [List.map_map, List.nil_append] at ho
  match k, hk with
  | 0, hk =>
    have h1 := hk.1 (by omega); have h2 := hk.2.1 (by omega); have h3 := hk.2.2 (by omega)
    simp [sectionToks, sections, atColon, h1, h2, h3]
  | 1, hk =>
    have h2 := hk.2.1 (by omega); have h3 := hk.2.2 (by omega)
    have := ho _ (ends_rbrace r)
    simp only [Function.comp_def] at this
    simp [sectionToks, sections, atColon, h2, h3, colonTok, this]
  | 2, hk =>
    have h3 := hk.2.2 (by omega)
    have := ho _ (ends_colon (separated (b.ins.map fun v => roleToks "in".toList v) ++
      ⟨.rbrace, ['}']⟩ :: r))
    simp only [Function.comp_def, colonTok] at this
    have hi := inputs_all b.ins [] (ends_rbrace r)
    have e : sectionToks b 2 ++ ⟨.rbrace, ['}']⟩ :: r =
        ⟨.colon, [':']⟩ :: (separated (b.outs.map fun o => roleToks o.1.word o.2) ++
          ⟨.colon, [':']⟩ :: (separated (b.ins.map fun v => roleToks "in".toList v) ++
            ⟨.rbrace, ['}']⟩ :: r)) := by
      simp [sectionToks, colonTok]
    rw [e, sections, if_pos (atColon_colon _), List.tail_cons, this]
    simp only
    rw [if_pos (atColon_colon _), List.tail_cons, hi]
    simp [atColon, h3]
  | k + 3, hk =>
    have := ho _ (ends_colon (separated (b.ins.map fun v => roleToks "in".toList v) ++
      (colonTok :: (separated (b.clobs.map clobToks) ++ ⟨.rbrace, ['}']⟩ :: r))))
    simp only [Function.comp_def, colonTok] at this
    have hi := inputs_all b.ins [] (ends_colon (separated (b.clobs.map clobToks) ++
      ⟨.rbrace, ['}']⟩ :: r))
    simp only [colonTok] at hi
    have hc := clobbers_all b.clobs [] r
    have e : sectionToks b (k + 3) ++ ⟨.rbrace, ['}']⟩ :: r =
        ⟨.colon, [':']⟩ :: (separated (b.outs.map fun o => roleToks o.1.word o.2) ++
          ⟨.colon, [':']⟩ :: (separated (b.ins.map fun v => roleToks "in".toList v) ++
            ⟨.colon, [':']⟩ :: (separated (b.clobs.map clobToks) ++ ⟨.rbrace, ['}']⟩ :: r))) := by
      simp [sectionToks, colonTok]
    rw [e, sections, if_pos (atColon_colon _), List.tail_cons, this]
    simp only
    rw [if_pos (atColon_colon _), List.tail_cons, hi]
    simp only
    rw [if_pos (atColon_colon _), List.tail_cons, hc]
    simp

theorem ends_sections (b : Block) (k : Nat) (r : List Tok) :
    Ends (sectionToks b k ++ ⟨.rbrace, ['}']⟩ :: r) := by
  match k with
  | 0 => exact ends_rbrace r
  | 1 => exact ⟨_, _, rfl, .inl rfl⟩
  | 2 => exact ⟨_, _, rfl, .inl rfl⟩
  | k + 3 => exact ⟨_, _, rfl, .inl rfl⟩

theorem head_text (ls : List (List Frag)) (h : ls.head? ≠ some []) :
    (ls.map text).head? ≠ some [] := by
  cases ls with
  | nil => simp
  | cons l r =>
    cases l with
    | nil => simp at h
    | cons f l => cases f <;> simp [text]

theorem parse_tokens (b : Block) (k : Nat) (hk : Covers b k) (hf : b.lines.head? ≠ some [])
    (r : List Tok) : parseAsm (tokens b k ++ r) = .ok (nodeOf b, r) := by
  have hb := body_strings (b.lines.map text) [] (ends_sections b k r)
  rw [foldl_joined _ (head_text _ hf), List.map_map] at hb
  have hs := sections_read (joined (b.lines.map text)) b.vol b k hk r
  simp only [Function.comp_def] at hb
  cases hv : b.vol <;> rw [hv] at hs <;>
    simp [parseAsm, tokens, hv, atVol, hb, hs, nodeOf, show (Kind.lbrace == Kind.vol) = false from rfl]

/-! ## The C text -/

/-- The text is these tokens, whatever follows. -/
def Lexes (s : List Char) (ts : List CTok) : Prop :=
  ∀ r, lex .out (s ++ r) = (lex .out r).map (ts ++ ·)

theorem Lexes.append {s s' : List Char} {t t' : List CTok} (h : Lexes s t) (h' : Lexes s' t') :
    Lexes (s ++ s') (t ++ t') := by
  intro r
  rw [List.append_assoc, h, h', Option.map_map]
  cases lex .out r <;> simp

theorem Lexes.nil : Lexes [] [] := by intro r; cases h : lex .out r <;> simp [h]

theorem lex_id (v s r : List Char) (c : Char) (h : ∀ x ∈ v, nameChar x = true)
    (hc : nameChar c = false) :
    lex (.id s) (v ++ c :: r) = (lex (start c).2 r).map (.id (s ++ v) :: (start c).1 ++ ·) := by
  induction v generalizing s with
  | nil => simp [lex, hc]
  | cons x v ih =>
    rw [List.cons_append, lex, if_pos (h x (by simp)), ih _ (fun y hy => h y (by simp [hy]))]
    simp

theorem nameChar_quote {x : Char} (h : nameChar x = true) : x ≠ '"' := by
  intro hx; subst hx; revert h; decide

theorem lexes_name (v : List Char) (c : Char) (hv : v ≠ []) (h : ∀ x ∈ v, nameChar x = true)
    (hc : nameChar c = false) (hq : c ≠ '"') (hb : c ≠ ' ' ∧ c ≠ '\n') :
    Lexes (v ++ [c]) [.id v, .punct c] := by
  intro r
  cases v with
  | nil => exact absurd rfl hv
  | cons x v =>
    have hx := h x (by simp)
    have := lex_id v [x] r c (fun y hy => h y (by simp [hy])) hc
    simp only [List.cons_append, List.append_assoc, List.nil_append]
    rw [lex]
    have h1 : start x = ([], .id [x]) := by
      simp [start, nameChar_quote hx, hx]
    rw [h1]
    simp only
    rw [this]
    have h2 : start c = ([.punct c], .out) := by simp [start, hc, hq, hb.1, hb.2]
    rw [h2]
    cases lex .out r <;> simp

theorem lexes_out (o : List Char × List Char) (ho : Name o.2) :
    Lexes (outItem o)
      [.str (if o.1 = "inout".toList then "+r".toList else "=r".toList), .punct '(', .id o.2,
        .punct ')'] := by
  have h := lexes_name o.2 ')' ho.1 ho.2.2 (by decide) (by decide) (by decide)
  unfold outItem
  by_cases h1 : o.1 = "out".toList
  · rw [if_pos h1, if_neg (by rw [h1]; decide)]
    exact Lexes.append (s := "\"=r\"(".toList) (t := [.str "=r".toList, .punct '(']) (fun r => by
      cases h : lex .out r <;> simp [lex, start, nameChar, h]) h
  · rw [if_neg h1]
    by_cases h2 : o.1 = "inout".toList
    · rw [if_pos h2, if_pos h2]
      exact Lexes.append (s := "\"+r\"(".toList) (t := [.str "+r".toList, .punct '(']) (fun r => by
        cases h : lex .out r <;> simp [lex, start, nameChar, h]) h
    · rw [if_neg h2, if_neg h2]
      exact Lexes.append (s := "\"=r\"(".toList) (t := [.str "=r".toList, .punct '(']) (fun r => by
        cases h : lex .out r <;> simp [lex, start, nameChar, h]) h

theorem lexes_in (v : List Char) (hv : Name v) :
    Lexes (inItem v) [.str "r".toList, .punct '(', .id v, .punct ')'] := by
  have h := lexes_name v ')' hv.1 hv.2.2 (by decide) (by decide) (by decide)
  exact Lexes.append (s := "\"r\"(".toList) (t := [.str "r".toList, .punct '(']) (fun r => by
    cases h : lex .out r <;> simp [lex, start, nameChar, h]) h

/-- Plain characters of a literal. -/
def PlainStr (s : List Char) : Prop := ∀ c ∈ s, c ≠ '"' ∧ c ≠ '\\' ∧ c ≠ '\n'

theorem lex_plain (s acc r : List Char) (h : PlainStr s) :
    lex (.str acc) (s ++ '"' :: r) = (lex .out r).map (.str (acc ++ s) :: ·) := by
  induction s generalizing acc with
  | nil => simp [lex]
  | cons c s ih =>
    have hc := h c (by simp)
    rw [List.cons_append, lex, if_neg hc.1, if_neg hc.2.1, if_neg hc.2.2,
      ih _ (fun y hy => h y (by simp [hy]))]
    simp

theorem lexes_clob (s : List Char) (h : PlainStr s) : Lexes (clobItem s) [.str s] := by
  intro r
  simp only [clobItem, List.cons_append, List.append_assoc, List.nil_append]
  rw [lex, show start '"' = ([], .str []) from rfl]
  simp only
  rw [lex_plain s [] r h]
  cases lex .out r <;> simp

/-- The tokens of the template. -/
def lits (acc : List Char) : List Char → List CTok
  | [] => [.str (acc ++ ['\n'])]
  | c :: t => if c = '\n' then .str (acc ++ ['\n']) :: lits [] t else lits (acc ++ [c]) t

theorem lits_ne (acc t : List Char) : lits acc t ≠ [] := by
  induction t generalizing acc with
  | nil => simp [lits]
  | cons c t ih => rw [lits]; split <;> simp [ih]

theorem lits_literal (acc t : List Char) : literal (lits acc t) = some (acc ++ t ++ ['\n']) := by
  induction t generalizing acc with
  | nil => simp [lits, literal]
  | cons c t ih =>
    rw [lits]
    split
    · next hc =>
      subst hc
      have h := ih []
      cases hl : lits [] t with
      | nil => exact absurd hl (lits_ne _ _)
      | cons x xs =>
        rw [hl] at h
        rw [literal, h]
        simp
    · rw [ih]; simp

theorem lits_mem (acc t : List Char) : ∀ x ∈ lits acc t, ∃ s, x = .str s := by
  induction t generalizing acc with
  | nil => simp [lits]
  | cons c t ih =>
    rw [lits]
    split
    · intro x hx
      rcases List.mem_cons.mp hx with rfl | hx
      · exact ⟨_, rfl⟩
      · exact ih _ x hx
    · exact ih _

theorem lex_template (t acc r : List Char) :
    lex (.str acc) (t.flatMap quoteChar ++ ("\\n\"".toList ++ r)) =
      (lex .out r).map (lits acc t ++ ·) := by
  induction t generalizing acc with
  | nil =>
    simp only [List.flatMap_nil, List.nil_append, lits]
    cases h : lex .out r <;> simp [lex, unescape, h]
  | cons c t ih =>
    rw [List.flatMap_cons, List.append_assoc, lits]
    by_cases hn : c = '\n'
    · subst hn
      have h2 : ∀ q, lex (.str acc) ("\\n\"\n        \"".toList ++ q) =
          (lex (.str []) q).map (.str (acc ++ ['\n']) :: ·) := by
        intro q
        cases h : lex (.str []) q <;> simp [lex, unescape, start, nameChar, h]
      rw [show quoteChar '\n' = "\\n\"\n        \"".toList from rfl, h2, ih, if_pos rfl]
      cases lex .out r <;> simp
    · rw [if_neg hn]
      by_cases hq : c = '"'
      · subst hq
        have h2 : ∀ q, lex (.str acc) ("\\\"".toList ++ q) = lex (.str (acc ++ ['"'])) q := by
          intro q; simp [lex, unescape]
        rw [show quoteChar '"' = "\\\"".toList from rfl, h2]; exact ih _
      · by_cases hb : c = '\\'
        · subst hb
          have h2 : ∀ q, lex (.str acc) ("\\\\".toList ++ q) = lex (.str (acc ++ ['\\'])) q := by
            intro q; simp [lex, unescape]
          rw [show quoteChar '\\' = "\\\\".toList from rfl, h2]; exact ih _
        · have h2 : ∀ q, lex (.str acc) ([c] ++ q) = lex (.str (acc ++ [c])) q := by
            intro q; simp [lex, hq, hb, hn]
          rw [show quoteChar c = [c] by simp [quoteChar, hn, hq, hb], h2]; exact ih _

theorem lexes_quote (t : List Char) : Lexes (quote t) (lits [] t) := by
  intro r
  simp only [quote, List.cons_append, List.append_assoc]
  rw [lex, show start '"' = ([], .str []) from rfl]
  simp only
  rw [lex_template]
  cases lex .out r <;> simp

/-- Groups of C tokens with commas between them. -/
def cseparated : List (List CTok) → List CTok
  | [] => []
  | [x] => x
  | x :: y :: r => x ++ (.punct ',' :: cseparated (y :: r))

theorem lexes_comma : Lexes ", ".toList [.punct ','] := by
  intro r
  cases h : lex .out r <;> simp [lex, start, nameChar, h]

theorem lexes_commas {α : Type} (f : α → List Char) (g : α → List CTok) (l : List α)
    (h : ∀ a ∈ l, Lexes (f a) (g a)) :
    Lexes (commas (l.map f)) (cseparated (l.map g)) := by
  induction l with
  | nil => exact Lexes.nil
  | cons a l ih =>
    cases l with
    | nil => simpa [commas, cseparated] using h a (by simp)
    | cons b l =>
      simp only [List.map_cons, commas, cseparated]
      have h2 := ih (fun x hx => h x (by simp [hx]))
      simp only [List.map_cons] at h2
      exact (h a (by simp)).append (lexes_comma.append h2)

theorem lex_blank (r : List Char) : lex .out (' ' :: r) = lex .out r := by
  cases h : lex .out r <;> simp [lex, start, nameChar, h]

theorem lex_newline (r : List Char) : lex .out ('\n' :: r) = lex .out r := by
  cases h : lex .out r <;> simp [lex, start, nameChar, h]

theorem lex_colon (r : List Char) : lex .out (':' :: r) = (lex .out r).map (.punct ':' :: ·) := by
  cases h : lex .out r <;> simp [lex, start, nameChar, h]

theorem secStart_eq (r : List Char) : secStart ++ r =
    '\n' :: ' ' :: ' ' :: ' ' :: ' ' :: ' ' :: ' ' :: ' ' :: ' ' :: ':' :: ' ' :: r := rfl

theorem lexes_secStart : Lexes secStart [.punct ':'] := by
  intro r
  rw [secStart_eq, lex_newline]
  simp only [lex_blank, lex_colon]
  rfl

/-! ## Splitting -/

theorem split_none (x : CTok) (l : List CTok) (h : x ∉ l) : split x l = [l] := by
  induction l with
  | nil => rfl
  | cons t r ih =>
    rw [split, if_neg (by intro e; subst e; simp at h), ih (by intro e; exact h (by simp [e]))]

theorem split_cons (x : CTok) (l r : List CTok) (h : x ∉ l) :
    split x (l ++ x :: r) = l :: split x r := by
  induction l with
  | nil => simp [split]
  | cons t l ih =>
    rw [List.cons_append, split, if_neg (by intro e; subst e; simp at h),
      ih (by intro e; exact h (by simp [e]))]

theorem split_comma (l : List (List CTok)) (hne : l ≠ []) (h : ∀ p ∈ l, CTok.punct ',' ∉ p) :
    split (.punct ',') (cseparated l) = l := by
  induction l with
  | nil => exact absurd rfl hne
  | cons p l ih =>
    cases l with
    | nil => exact split_none _ _ (h p (by simp))
    | cons q l =>
      rw [cseparated, split_cons _ _ _ (h p (by simp)), ih (by simp) (fun y hy => h y (by simp [hy]))]

theorem cseparated_ne (l : List (List CTok)) (hne : l ≠ []) (h : ∀ p ∈ l, p ≠ []) :
    cseparated l ≠ [] := by
  cases l with
  | nil => exact absurd rfl hne
  | cons p l =>
    have := h p (by simp)
    cases l with
    | nil => exact this
    | cons q l => simp [cseparated, this]

theorem items_sep (l : List (List CTok)) (h : ∀ p ∈ l, CTok.punct ',' ∉ p ∧ p ≠ []) :
    items (cseparated l) = l := by
  by_cases hl : l = []
  · subst hl; rfl
  · rw [items, if_neg (cseparated_ne l hl (fun p hp => (h p hp).2)),
      split_comma l hl (fun p hp => (h p hp).1)]

theorem colon_sep (l : List (List CTok)) (h : ∀ p ∈ l, CTok.punct ':' ∉ p) :
    CTok.punct ':' ∉ cseparated l := by
  induction l with
  | nil => simp [cseparated]
  | cons p l ih =>
    cases l with
    | nil => exact h p (by simp)
    | cons q l =>
      rw [cseparated]
      intro hm
      rcases List.mem_append.mp hm with hm | hm
      · exact h p (by simp) hm
      · rcases List.mem_cons.mp hm with hm | hm
        · cases hm
        · exact ih (fun y hy => h y (by simp [hy])) hm

end Verif.Asm
