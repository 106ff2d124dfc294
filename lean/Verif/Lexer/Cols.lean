import Verif.Lexer.Tokens

/-! # Columns of tokens (C58) -/

namespace Verif.Lexer
open Verif Verif.Str

namespace Spec

/-- the current line, extended by one byte -/
def lineStep (cur : List Byte) (c : Byte) : List Byte := if c = 10 then [] else cur ++ [c]

/-- the part of the line in front of an offset -/
def lineBefore (src : List Byte) (p : Nat) : List Byte := (src.take p).foldl lineStep []

/-- column of an offset: one plus the bytes since the last newline -/
def colAt (src : List Byte) (p : Nat) : Nat := 1 + (lineBefore src p).length

/-- neither the start nor the end of a block comment -/
def NoBlock (line : List Byte) : Prop := ¬ [47, 42] <:+: line ∧ ¬ [42, 47] <:+: line

end Spec
open Spec

/-- `lineBefore` really is the text behind the last newline -/
theorem lineBefore_spec (src : List Byte) (p : Nat) :
    10 ∉ lineBefore src p ∧ ∃ a, src.take p = a ++ lineBefore src p ∧ (a = [] ∨ a.getLast? = some 10) := by
  unfold lineBefore
  generalize src.take p = s
  suffices h : ∀ (s a cur : List Byte), 10 ∉ cur → (a = [] ∨ a.getLast? = some 10) →
      10 ∉ s.foldl lineStep cur ∧ ∃ a', a ++ (cur ++ s) = a' ++ s.foldl lineStep cur ∧
        (a' = [] ∨ a'.getLast? = some 10) by
    simpa using h s [] [] (by simp) (.inl rfl)
  intro s
  induction s with
  | nil => intro a cur h1 h2; exact ⟨h1, a, by simp, h2⟩
  | cons c s ih =>
      intro a cur h1 h2
      rw [List.foldl_cons]
      by_cases hc : c = 10
      · have := ih (a ++ (cur ++ [10])) [] (by simp) (.inr (by rw [← List.append_assoc, List.getLast?_concat]))
        rw [lineStep, if_pos hc]
        subst hc
        simpa using this
      · have := ih a (cur ++ [c]) (by simp [h1, Ne.symm hc]) h2
        rw [lineStep, if_neg hc]
        simpa using this

theorem lineBefore_add (src : List Byte) (p n : Nat) :
    lineBefore src (p + n) = ((src.drop p).take n).foldl lineStep (lineBefore src p) := by
  unfold lineBefore
  rw [List.take_add, List.foldl_append]

theorem NoBlock.front {a b : List Byte} (h : NoBlock (a ++ b)) : NoBlock a :=
  ⟨fun h' => h.1 (h'.trans ⟨[], b, by simp⟩), fun h' => h.2 (h'.trans ⟨[], b, by simp⟩)⟩

/-- the column is right for the current line -/
def ColOk (cur : List Byte) (col : Nat) : Prop := NoBlock cur → col = 1 + cur.length

theorem ColOk.step {cur : List Byte} {col : Nat} (h : ColOk cur col) (c : Byte) :
    ColOk (lineStep cur c) (if c = 10 then 1 else col + 1) := by
  unfold lineStep
  split
  · intro _; rfl
  · intro hn
    rw [h (NoBlock.front hn)]; simp; omega

theorem fold_plain : ∀ (s cur : List Byte), 10 ∉ s → s.foldl lineStep cur = cur ++ s
  | [], cur, _ => by simp
  | c :: s, cur, h => by
      simp only [List.mem_cons, not_or] at h
      rw [List.foldl_cons, lineStep, if_neg (Ne.symm h.1), fold_plain s _ h.2]; simp

theorem ColOk.plain {cur s : List Byte} {col : Nat} (h : ColOk cur col) (hs : 10 ∉ s) :
    ColOk (s.foldl lineStep cur) (col + s.length) := by
  rw [fold_plain s cur hs]
  intro hn
  rw [h (NoBlock.front hn)]; simp; omega

theorem count_col : ∀ (s : List Byte) (l : Lex) (cur : List Byte), ColOk cur l.col →
    ColOk (s.foldl lineStep cur) (count s l).col
  | [], _, _, h => h
  | c :: s, l, cur, h => by
      rw [List.foldl_cons, count]
      refine count_col s _ _ ?_
      have := h.step c
      split <;> rename_i hc
      · rwa [if_pos hc] at this
      · rwa [if_neg hc] at this

theorem skipWs_col : ∀ (s : List Byte) (l : Lex) (cur : List Byte),
    (ColOk cur l.col ∨ s = [] ∨ s.head? = some 10) →
    ∃ g, s = g ++ (skipWs s l).1 ∧ (skipWs s l).2.pos = l.pos + g.length ∧
      (ColOk (g.foldl lineStep cur) (skipWs s l).2.col ∨ (skipWs s l).1 = [])
  | [], l, cur, h => ⟨[], rfl, rfl, .inr rfl⟩
  | c :: s, l, cur, h => by
      rw [skipWs]
      have hstep : ColOk cur l.col ∨ c = 10 := by
        rcases h with h | h | h
        · exact .inl h
        · simp at h
        · right; simpa using h
      by_cases hc : isSpace c = true
      · rw [if_pos hc]
        by_cases h10 : c = 10
        · rw [if_pos h10]
          obtain ⟨g, h1, h2, h3⟩ := skipWs_col s ⟨l.pos + 1, l.line + 1, 1⟩ [] (.inl fun _ => rfl)
          refine ⟨c :: g, by rw [List.cons_append, ← h1], by rw [h2]; simp; omega, ?_⟩
          rw [List.foldl_cons, lineStep, if_pos h10]; exact h3
        · rw [if_neg h10]
          have hok := (hstep.resolve_right h10).step c
          rw [if_neg h10] at hok
          obtain ⟨g, h1, h2, h3⟩ := skipWs_col s ⟨l.pos + 1, l.line, l.col + 1⟩ _ (.inl hok)
          exact ⟨c :: g, by rw [List.cons_append, ← h1], by rw [h2]; simp; omega, h3⟩
      · rw [if_neg hc]
        refine ⟨[], rfl, rfl, .inl ?_⟩
        rcases hstep with h | rfl
        · exact h
        · exact absurd (by decide) hc

/-- state of the lexer between tokens: the column is right, or a newline or the end follows -/
def At (src : List Byte) (l : Lex) : Prop :=
  ColOk (lineBefore src l.pos) l.col ∨ src.drop l.pos = [] ∨ (src.drop l.pos).head? = some 10

theorem next_col (emit : Bool) (src : List Byte) (hz : 0 ∉ src) :
    ∀ (f : Nat) (l0 : Lex) (t : Tok) (l' : Lex), next emit src f l0 = .ok (t, l') → At src l0 →
      (t.kind ≠ .eof → ColOk (lineBefore src t.start) t.col) ∧
      (t.kind ≠ .char ∨ 10 ∉ textOf src t → At src l')
  | 0, l0, t, l', h, _ => by simp [next] at h
  | f + 1, l0, t, l', h, hat => by
      unfold next at h
      by_cases hlen : src.length < l0.pos
      · rw [if_pos hlen] at h; cases h
      rw [if_neg hlen] at h
      obtain ⟨g, h1, h2, h3⟩ := skipWs_col (src.drop l0.pos) l0 (lineBefore src l0.pos) hat
      obtain ⟨g', h1', h2', h3', h4', _⟩ := skipWs_spec (src.drop l0.pos) l0
      dsimp only at h
      generalize hs : (skipWs (src.drop l0.pos) l0).1 = s at *
      generalize hl : (skipWs (src.drop l0.pos) l0).2 = l at *
      have hdrop : src.drop l.pos = s := by rw [h2, ← List.drop_drop, h1, List.drop_left]
      have hlb : lineBefore src l.pos = g.foldl lineStep (lineBefore src l0.pos) := by
        rw [h2, lineBefore_add, h1, List.take_left]
      rw [← hlb] at h3
      by_cases hnil : s = []
      · rw [if_pos hnil] at h
        cases h
        exact ⟨fun hk => absurd rfl hk, fun _ => .inr (.inl (by rw [hdrop, hnil]))⟩
      rw [if_neg hnil] at h
      have hok : ColOk (lineBefore src l.pos) l.col := h3.resolve_right hnil
      have hadd : ∀ n, lineBefore src (l.pos + n) = (s.take n).foldl lineStep (lineBefore src l.pos) := by
        intro n; rw [lineBefore_add, hdrop]
      by_cases hpp : s.head? = some 35
      · rw [if_pos hpp] at h
        cases h
        refine ⟨fun _ => hok, fun _ => .inr ?_⟩
        obtain ⟨_, _, p3⟩ := preproc_spec s
        rw [← List.drop_drop, hdrop]
        cases hd : s.drop (preproc s).1 with
        | nil => exact .inl rfl
        | cons x r => right; rw [p3 x (by rw [hd]; rfl)]; rfl
      rw [if_neg hpp] at h
      by_cases hlc : s.head? = some 47 ∧ s.tail.head? = some 47
      · rw [if_pos hlc] at h
        obtain ⟨r, rfl⟩ : ∃ r, s = 47 :: 47 :: r := by
          obtain ⟨hx, hy⟩ := hlc
          match s, hx, hy with
          | _ :: _ :: r, hx, hy => simp at hx hy; exact ⟨r, by rw [hx, hy]⟩
        have hd2 : List.drop 2 (47 :: 47 :: r) = r := rfl
        rw [hd2] at h
        have hbody : 10 ∉ r.take (span (fun c => c != 10) r) := fun hm => by
          have := span_all _ _ _ hm; simp at this
        have h22 : 2 + span (fun c => c != 10) r = span (fun c => c != 10) r + 1 + 1 := by omega
        have htake : List.take (2 + span (fun c => c != 10) r) (47 :: 47 :: r)
            = 47 :: 47 :: r.take (span (fun c => c != 10) r) := by rw [h22]; rfl
        have hat' : At src ⟨l.pos + (2 + span (fun c => c != 10) r), l.line,
            l.col + (2 + span (fun c => c != 10) r)⟩ := by
          left
          dsimp only
          rw [hadd, htake]
          have := hok.plain (s := 47 :: 47 :: r.take (span (fun c => c != 10) r)) (by simpa using hbody)
          have hn : (47 :: 47 :: r.take (span (fun c => c != 10) r) : List Byte).length
              = 2 + span (fun c => c != 10) r := by
            have := span_le (fun c => c != 10) r
            simp [List.length_take]; omega
          rwa [hn] at this
        cases emit with
        | true =>
            rw [if_pos rfl] at h
            cases h
            exact ⟨fun _ => hok, fun _ => hat'⟩
        | false =>
            rw [if_neg (by simp)] at h
            exact next_col false src hz f _ t l' h hat'
      rw [if_neg hlc] at h
      by_cases hbc : s.head? = some 47 ∧ s.tail.head? = some 42
      · rw [if_pos hbc] at h
        obtain ⟨r, rfl⟩ : ∃ r, s = 47 :: 42 :: r := by
          obtain ⟨hx, hy⟩ := hbc
          match s, hx, hy with
          | _ :: _ :: r, hx, hy => simp at hx hy; exact ⟨r, by rw [hx, hy]⟩
        have hd2 : List.drop 2 (47 :: 42 :: r) = r := rfl
        rw [hd2] at h
        obtain ⟨body, rest, hb1, _, _⟩ := block_spec r ⟨l.pos + 2, l.line, l.col⟩
        have hat' : At src (block r ⟨l.pos + 2, l.line, l.col⟩) := by
          rcases hb1 with ⟨hb1, hb4⟩ | ⟨hb1, hb4, hb5⟩
          · left
            intro hn
            exfalso
            have hp : (block r ⟨l.pos + 2, l.line, l.col⟩).pos
                = l.pos + (47 :: 42 :: body ++ [42, 47]).length := by rw [hb4]; simp; omega
            have ht : (47 :: 42 :: r).take (47 :: 42 :: body ++ [42, 47]).length
                = (47 :: 42 :: body) ++ [42, 47] := by
              rw [hb1, show (47 :: 42 :: (body ++ 42 :: 47 :: rest) : List Byte)
                = (47 :: 42 :: body ++ [42, 47]) ++ rest by simp, List.take_left]
            rw [hp, hadd, ht, List.foldl_append] at hn
            apply hn.2
            rw [fold_plain _ _ (by decide)]
            exact ⟨(47 :: 42 :: body).foldl lineStep (lineBefore src l.pos), [], by simp⟩
          · right; left
            rw [hb5]
            apply List.drop_eq_nil_of_le
            have := congrArg List.length hdrop
            rw [List.length_drop] at this
            simp only [List.length_cons, hb1] at this
            dsimp only
            omega
        cases emit with
        | true =>
            rw [if_pos rfl] at h
            cases h
            exact ⟨fun _ => hok, fun _ => hat'⟩
        | false =>
            rw [if_neg (by simp)] at h
            exact next_col false src hz f _ t l' h hat'
      rw [if_neg hbc] at h
      obtain ⟨a, r, hsr⟩ : ∃ a r, s = a :: r := by
        cases s with
        | nil => exact absurd rfl hnil
        | cons a r => exact ⟨a, r, rfl⟩
      have h0 : rd s 0 = .ok a := by rw [hsr, rd_lt (by simp)]; rfl
      have ha0 : a ≠ 0 := by
        rintro rfl
        apply hz
        have : (0 : Byte) ∈ src.drop l.pos := by rw [hdrop, hsr]; simp
        exact List.mem_of_mem_drop this
      rcases raw_spec h0 ha0 (head_space10 (h3' a (by rw [hsr]; rfl)))
        with ⟨k, n, hr, hn1, hn2, hk, hnl⟩ | ⟨hu, hg⟩
      · rw [hr, Run.ok_bind] at h
        cases h
        refine ⟨fun _ => hok, fun hor => .inl ?_⟩
        have htext : textOf src ⟨k, l.pos, n, l.line, l.col⟩ = s.take n := by
          unfold textOf; dsimp only; rw [hdrop]
        rw [htext] at hor
        dsimp only at hor ⊢
        unfold advance
        split
        · dsimp only
          rw [hadd]; exact count_col _ _ _ hok
        · rename_i hns
          have hno : 10 ∉ s.take n := by
            rcases hnl with h | h | h | h | h
            · exact h
            · rcases hor with h' | h'
              · exact absurd h h'
              · exact h'
            · exact absurd (.inl h) hns
            · exact absurd (.inr (.inl h)) hns
            · exact absurd (.inr (.inr h)) hns
          dsimp only
          rw [hadd]
          have := hok.plain hno
          rwa [List.length_take, Nat.min_eq_left hn2] at this
      · rw [hu] at h; cases h

theorem lexFrom_col (emit : Bool) (src : List Byte) (hz : 0 ∉ src) :
    ∀ (f : Nat) (l : Lex) (ts : List Tok), lexFrom emit src f l = .ok ts → At src l →
      (∀ t ∈ ts, t.kind = .char → 10 ∉ textOf src t) →
      ∀ t ∈ ts, t.kind ≠ .eof → ColOk (lineBefore src t.start) t.col
  | 0, l, ts, h, _, _ => by simp [lexFrom] at h
  | f + 1, l, ts, h, hat, hch => by
      unfold lexFrom at h
      obtain ⟨⟨t, l'⟩, hn, h⟩ := Run.bind_ok h
      obtain ⟨c1, c2⟩ := next_col emit src hz _ _ _ _ hn hat
      dsimp only at h
      by_cases he : t.kind = .eof
      · rw [if_pos he] at h
        cases h
        intro x hx hk
        simp only [List.mem_singleton] at hx
        subst hx; exact absurd he hk
      · rw [if_neg he] at h
        obtain ⟨ts', hts, h⟩ := Run.bind_ok h
        cases h
        intro x hx hk
        simp only [List.mem_cons] at hx
        rcases hx with rfl | hx
        · exact c1 hk
        · refine lexFrom_col emit src hz f l' ts' hts (c2 ?_) (fun y hy => hch y (by simp [hy])) x hx hk
          by_cases hk : t.kind = .char
          · exact .inr (hch t (by simp) hk)
          · exact .inl hk

/-- C58 (partial): the column of every token is one plus the number of bytes between the last
newline and the token, if no block comment starts or ends between the two and no character literal
of the text contains a newline.  Missing: tokens behind a block comment on the same line
(`lex_col_comment_violated`), texts with a newline in a character literal
(`lex_col_char_violated`) and the end of file behind a directive (`lex_col_eof_violated`). -/
theorem lex_columns_partial (emit : Bool) (src : List Byte) (hz : 0 ∉ src) (ts : List Tok)
    (h : lex emit src = .ok ts) (hch : ∀ t ∈ ts, t.kind = .char → 10 ∉ textOf src t) :
    ∀ t ∈ ts, t.kind ≠ .eof → NoBlock (lineBefore src t.start) → t.col = colAt src t.start :=
  fun t ht hk hb => lexFrom_col emit src hz _ _ _ h (.inl fun _ => rfl) hch t ht hk hb

/-- `/**/⏎ab "c⏎d" 'e' f`: the last token stands in the eighth column of the line `d" 'e' f` -/
example : ∃ ts t, lex false [47, 42, 42, 47, 10, 97, 98, 32, 34, 99, 10, 100, 34, 32, 39, 101, 39, 32, 102]
      = .ok ts ∧ t ∈ ts ∧ t.kind = .ident ∧ t.start = 18 ∧ t.col = 8 ∧ t.line = 3 ∧
    NoBlock (lineBefore [47, 42, 42, 47, 10, 97, 98, 32, 34, 99, 10, 100, 34, 32, 39, 101, 39, 32, 102] 18) :=
  ⟨_, ⟨.ident, 18, 1, 3, 8⟩, rfl, by decide +kernel, rfl, rfl, rfl, rfl, by unfold NoBlock; decide +kernel⟩

/-- C58 refuted: the delimiters of a block comment are not counted -/
theorem lex_col_comment_violated : ∃ ts t, lex false [47, 42, 42, 47, 97] = .ok ts ∧ t ∈ ts ∧
    t.start = 4 ∧ t.col = 1 ∧ colAt [47, 42, 42, 47, 97] t.start = 5 :=
  ⟨_, ⟨.ident, 4, 1, 1, 1⟩, rfl, by decide +kernel, rfl, rfl, by decide⟩

/-- C58 refuted: a newline in a character literal does not reset the column -/
theorem lex_col_char_violated : ∃ ts t, lex false [39, 10, 39, 97] = .ok ts ∧ t ∈ ts ∧
    t.start = 3 ∧ t.col = 4 ∧ colAt [39, 10, 39, 97] t.start = 2 :=
  ⟨_, ⟨.ident, 3, 1, 1, 4⟩, rfl, by decide +kernel, rfl, rfl, by decide⟩

/-- C58 refuted: the bytes of a directive on the last line are not counted -/
theorem lex_col_eof_violated : ∃ ts t, lex false [35, 97] = .ok ts ∧ t ∈ ts ∧
    t.start = 2 ∧ t.col = 1 ∧ colAt [35, 97] t.start = 3 :=
  ⟨_, ⟨.eof, 2, 0, 1, 1⟩, rfl, by decide +kernel, rfl, rfl, by decide⟩

end Verif.Lexer
