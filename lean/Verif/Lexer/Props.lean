import Verif.Lexer.Lemmas

/-! # Properties of the lexer: coverage and lines (C21, C22) -/

namespace Verif.Lexer
open Verif Verif.Str

namespace Spec

/-- text between tokens: white space and comments.  `fin` says that the text ends behind it; only
then may a comment be unfinished. -/
inductive Blank (fin : Prop) : List Byte → Prop
  | nil : Blank fin []
  | space (c : Byte) (g : List Byte) : c ∈ ([9, 10, 11, 12, 13, 32] : List Byte) → Blank fin g →
      Blank fin (c :: g)
  | line (body g : List Byte) : 10 ∉ body → Blank fin (10 :: g) →
      Blank fin (47 :: 47 :: body ++ 10 :: g)
  | lineEnd (body : List Byte) : fin → 10 ∉ body → Blank fin (47 :: 47 :: body)
  | block (body g : List Byte) : ¬ [42, 47] <:+: body → Blank fin g →
      Blank fin (47 :: 42 :: body ++ 42 :: 47 :: g)
  | blockEnd (body : List Byte) : fin → ¬ [42, 47] <:+: body → Blank fin (47 :: 42 :: body)

/-- the tokens tile the text `s`, which begins at offset `p`: blank, token, blank, token, ...,
blank, end of file.  `emit` says whether comments are tokens or blank. -/
def Covers (emit : Bool) (s : List Byte) (p : Nat) : List Tok → Prop
  | [] => False
  | t :: ts => ∃ gap text rest, s = gap ++ (text ++ rest) ∧ Blank (text ++ rest = []) gap ∧
      (emit = true → ∀ c ∈ gap, c ∈ ([9, 10, 11, 12, 13, 32] : List Byte)) ∧
      (emit = false → t.kind ≠ .comment) ∧
      t.start = p + gap.length ∧ t.len = text.length ∧
      ((ts = [] ∧ t.kind = .eof ∧ text = [] ∧ rest = []) ∨
       (t.kind ≠ .eof ∧ text ≠ [] ∧ Covers emit rest (t.start + t.len) ts))

/-- the bytes of a token -/
def textOf (src : List Byte) (t : Tok) : List Byte := (src.drop t.start).take t.len

/-- line of an offset -/
def lineAt (src : List Byte) (p : Nat) : Nat := 1 + (src.take p).count 10

end Spec
open Spec

theorem space_mem {c : Byte} (h : isSpace c = true) : c ∈ ([9, 10, 11, 12, 13, 32] : List Byte) := by
  have key : ∀ c : Fin 256, isSpace (UInt8.ofFin c) = true →
      UInt8.ofFin c ∈ ([9, 10, 11, 12, 13, 32] : List Byte) := by decide +kernel
  exact key c.toFin h

theorem Blank.app {fin : Prop} {g h : List Byte} (hg : ∀ c ∈ g, isSpace c = true) (hh : Blank fin h) :
    Blank fin (g ++ h) := by
  induction g with
  | nil => exact hh
  | cons c g ih =>
      exact .space c _ (space_mem (hg c (by simp))) (ih (fun x hx => hg x (by simp [hx])))

theorem Blank.ws {fin : Prop} {g : List Byte} (hg : ∀ c ∈ g, isSpace c = true) : Blank fin g := by
  have := Blank.app (fin := fin) hg .nil
  simpa using this

/-- one call of `lexer_next` on the rest `s` of the text -/
def NextOk (emit : Bool) (s : List Byte) (l0 : Lex) (t : Tok) (l' : Lex) : Prop :=
  ∃ gap text rest, s = gap ++ (text ++ rest) ∧ Blank (text ++ rest = []) gap ∧
    ((emit = true → ∀ c ∈ gap, c ∈ ([9, 10, 11, 12, 13, 32] : List Byte)) ∧
      (emit = false → t.kind ≠ .comment)) ∧
    t.start = l0.pos + gap.length ∧ t.len = text.length ∧ l'.pos = t.start + t.len ∧
    t.line = l0.line + gap.count 10 ∧
    (t.kind ≠ .char ∨ 10 ∉ text → l'.line = t.line + text.count 10) ∧
    (∀ c, (text ++ rest).head? = some c → isSpace c = false) ∧
    ((t.kind = .eof ∧ text = [] ∧ rest = []) ∨ (t.kind ≠ .eof ∧ text ≠ []))

theorem not_mem_count {s : List Byte} (h : 10 ∉ s) : s.count 10 = 0 := List.count_eq_zero.2 h

theorem head_space10 {c : Byte} (h : isSpace c = false) : c ≠ 10 := by
  rintro rfl; exact absurd h (by decide)

/-- skipping one comment in front -/
theorem NextOk.comment {g c s' : List Byte} {l0 l1 l' : Lex} {t : Tok}
    (hg : ∀ x ∈ g, isSpace x = true)
    (hb : ∀ (h r : List Byte), s' = h ++ r → (∀ c, r.head? = some c → isSpace c = false) →
      Blank (r = []) h → Blank (r = []) (c ++ h))
    (hp : l1.pos = l0.pos + g.length + c.length)
    (hln : l1.line = l0.line + g.count 10 + c.count 10) (h : NextOk false s' l1 t l') :
    NextOk false (g ++ (c ++ s')) l0 t l' := by
  obtain ⟨gap, text, rest, h1, h2, hem, h3, h4, h5, h6, h7, h9, h8⟩ := h
  refine ⟨g ++ (c ++ gap), text, rest, by rw [h1]; simp, ?_, ⟨by simp, hem.2⟩, ?_, h4, h5, ?_, h7, h9, h8⟩
  · exact Blank.app hg (hb gap (text ++ rest) h1 h9 h2)
  · rw [h3, hp]; simp; omega
  · rw [h6, hln]; simp; omega

/-- a token right behind the white space -/
theorem NextOk.token {emit : Bool} {g s : List Byte} {l0 l : Lex} (hg : ∀ x ∈ g, isSpace x = true)
    (hsp : ∀ c, s.head? = some c → isSpace c = false) (h4 : l.pos = l0.pos + g.length)
    (h5 : l.line = l0.line + g.count 10) {k : Kind} {n : Nat} (hk : k ≠ .eof) (hkc : emit = false → k ≠ .comment) (h1 : 1 ≤ n)
    (hn : n ≤ s.length) {c : Nat} {l' : Lex} (hp : l'.pos = l.pos + n)
    (hln : k ≠ .char ∨ 10 ∉ s.take n → l'.line = l.line + (s.take n).count 10) :
    NextOk emit (g ++ s) l0 ⟨k, l.pos, n, l.line, c⟩ l' := by
  refine ⟨g, s.take n, s.drop n, by rw [List.take_append_drop], Blank.ws hg,
    ⟨fun _ c hc => space_mem (hg c hc), hkc⟩, h4, ?_, hp, h5, hln, ?_,
    .inr ⟨hk, ?_⟩⟩
  · simp; omega
  · rw [List.take_append_drop]; exact hsp
  · intro h; have := congrArg List.length h; rw [List.length_take, List.length_nil] at this; omega

theorem line_comment {r : List Byte} {h r' : List Byte}
    (hr' : r.drop (span (fun c => c != 10) r) = h ++ r')
    (hsp : ∀ c, r'.head? = some c → isSpace c = false) (hbl : Blank (r' = []) h) :
    Blank (r' = []) ((47 :: 47 :: r.take (span (fun c => c != 10) r)) ++ h) := by
  have hbody : 10 ∉ r.take (span (fun c => c != 10) r) := fun hm => by
    have := span_all _ _ _ hm; simp at this
  cases h with
  | nil =>
      have : r' = [] := by
        cases hr : r' with
        | nil => rfl
        | cons x r'' =>
          exfalso
          have hx := span_stop _ r x (by rw [hr', hr]; rfl)
          have hx : x = 10 := by simpa using hx
          exact head_space10 (hsp x (by rw [hr]; rfl)) hx
      rw [List.append_nil]
      exact .lineEnd _ this hbody
  | cons x h =>
      have hx := span_stop _ r x (by rw [hr']; rfl)
      have hx : x = 10 := by simpa using hx
      subst hx
      exact .line _ h hbody hbl

theorem next_spec (emit : Bool) (src : List Byte) (hz : 0 ∉ src) :
    ∀ (f : Nat) (l0 : Lex), l0.pos ≤ src.length → src.length - l0.pos < f →
    (∃ t l', next emit src f l0 = .ok (t, l') ∧ NextOk emit (src.drop l0.pos) l0 t l') ∨
    (next emit src f l0 = .ub ∧ ¬ Good src)
  | 0, l0, _, hf => by omega
  | f + 1, l0, hle, hf => by
      unfold next
      rw [if_neg (by omega)]
      obtain ⟨g, h1, h2, h3, h4, h5⟩ := skipWs_spec (src.drop l0.pos) l0
      dsimp only
      generalize hs : (skipWs (src.drop l0.pos) l0).1 = s at *
      generalize hl : (skipWs (src.drop l0.pos) l0).2 = l at *
      have hslen : l.pos + s.length = src.length := by
        have := congrArg List.length h1
        rw [List.length_drop, List.length_append] at this; omega
      have hdrop : src.drop l.pos = s := by
        rw [h4, ← List.drop_drop, h1, List.drop_left]
      have hlpos : l0.pos ≤ l.pos := by omega
      rw [h1]
      by_cases hnil : s = []
      · rw [if_pos hnil]
        refine .inl ⟨_, _, rfl, g, [], [], by rw [hnil]; simp, Blank.ws h2,
          ⟨fun _ c hc => space_mem (h2 c hc), fun _ => by simp⟩, h4, rfl, rfl, h5, ?_,
          by simp, .inl ⟨rfl, rfl, rfl⟩⟩
        intro _; rfl
      · rw [if_neg hnil]
        obtain ⟨a, r, hsr⟩ : ∃ a r, s = a :: r := by
          cases s with
          | nil => exact absurd rfl hnil
          | cons a r => exact ⟨a, r, rfl⟩
        by_cases hpp : s.head? = some 35
        · rw [if_pos hpp]
          obtain ⟨p1, p2, p3⟩ := preproc_spec s
          refine .inl ⟨_, _, rfl, NextOk.token h2 h3 h4 h5 (by decide) (by simp) (preproc_pos hpp) p1 rfl ?_⟩
          intro _; exact congrArg _ p2
        · rw [if_neg hpp]
          by_cases hlc : s.head? = some 47 ∧ s.tail.head? = some 47
          · rw [if_pos hlc]
            obtain ⟨r, rfl⟩ : ∃ r, s = 47 :: 47 :: r := by
              obtain ⟨hx, hy⟩ := hlc
              cases r with
              | nil => rw [hsr] at hy; simp at hy
              | cons y r =>
                  rw [hsr] at hx hy
                  simp at hx hy
                  exact ⟨r, by rw [hsr, hx, hy]⟩
            have hd2 : List.drop 2 (47 :: 47 :: r) = r := rfl
            rw [hd2]
            have hsp := span_le (fun c => c != 10) r
            have hbody : 10 ∉ r.take (span (fun c => c != 10) r) := fun hm => by
              have := span_all _ _ _ hm; simp at this
            have hlen2 : 2 + span (fun c => c != 10) r ≤ (47 :: 47 :: r : List Byte).length := by
              simp; omega
            have h22 : 2 + span (fun c => c != 10) r = span (fun c => c != 10) r + 1 + 1 := by omega
            have htake : List.take (2 + span (fun c => c != 10) r) (47 :: 47 :: r)
                = 47 :: 47 :: r.take (span (fun c => c != 10) r) := by rw [h22]; rfl
            have hdr : List.drop (2 + span (fun c => c != 10) r) (47 :: 47 :: r)
                = r.drop (span (fun c => c != 10) r) := by rw [h22]; rfl
            cases emit with
            | true =>
                rw [if_pos rfl]
                refine .inl ⟨_, _, rfl, NextOk.token h2 h3 h4 h5 (by decide) (by simp) (by omega) hlen2 rfl ?_⟩
                intro _
                rw [htake, not_mem_count (by simpa using hbody)]; rfl
            | false =>
                rw [if_neg (by simp)]
                have hp' : l.pos + (2 + span (fun c => c != 10) r) ≤ src.length := by
                  rw [← hslen]; omega
                rcases next_spec false src hz f ⟨l.pos + (2 + span (fun c => c != 10) r), l.line,
                    l.col + (2 + span (fun c => c != 10) r)⟩ hp' (by simp only; omega)
                  with ⟨t, l', hn, hok⟩ | hu
                · refine .inl ⟨t, l', hn, ?_⟩
                  dsimp only at hok
                  rw [← List.drop_drop, hdrop, hdr] at hok
                  have e : (47 :: 47 :: r : List Byte) = (47 :: 47 :: r.take (span (fun c => c != 10) r))
                      ++ r.drop (span (fun c => c != 10) r) := by simp
                  rw [e]
                  refine NextOk.comment h2 (fun h r' hr' hsp hbl => line_comment hr' hsp hbl) ?_ ?_ hok
                  · rw [h4]; simp; omega
                  · rw [not_mem_count (s := 47 :: 47 :: _) (by simpa using hbody), h5]; rfl
                · exact .inr hu
          · rw [if_neg hlc]
            by_cases hbc : s.head? = some 47 ∧ s.tail.head? = some 42
            · rw [if_pos hbc]
              obtain ⟨r, rfl⟩ : ∃ r, s = 47 :: 42 :: r := by
                obtain ⟨hx, hy⟩ := hbc
                cases r with
                | nil => rw [hsr] at hy; simp at hy
                | cons y r =>
                    rw [hsr] at hx hy
                    simp at hx hy
                    exact ⟨r, by rw [hsr, hx, hy]⟩
              have hd2 : List.drop 2 (47 :: 42 :: r) = r := rfl
              rw [hd2]
              obtain ⟨body, rest, hb1, hb2, hb3⟩ := block_spec r ⟨l.pos + 2, l.line, l.col⟩
              generalize block r ⟨l.pos + 2, l.line, l.col⟩ = lb at *
              -- the comment with its delimiters
              obtain ⟨c, hc1, hc2, hc3, hc4⟩ : ∃ c, (47 :: 42 :: r : List Byte) = c ++ rest ∧
                  lb.pos = l.pos + c.length ∧ c.count 10 = body.count 10 ∧ 2 ≤ c.length ∧
                  (∀ (h r' : List Byte), rest = h ++ r' → Blank (r' = []) h →
                    Blank (r' = []) (c ++ h)) := by
                rcases hb1 with ⟨hb1, hb4⟩ | ⟨hb1, hb4, hb5⟩
                · refine ⟨47 :: 42 :: body ++ [42, 47], by rw [hb1]; simp, by rw [hb4]; simp; omega,
                    by simp, by simp, ?_⟩
                  intro h r' _ hbl
                  have := Blank.block body h hb2 hbl
                  simpa using this
                · refine ⟨47 :: 42 :: body, by rw [hb1, hb4]; simp, by rw [hb5]; simp; omega, by simp,
                    by simp, ?_⟩
                  intro h r' hr' hbl
                  rw [hb4] at hr'
                  have hh := List.append_eq_nil_iff.1 hr'.symm
                  rw [hh.1, List.append_nil]
                  exact .blockEnd body hh.2 hb2
              have hlen : c.length ≤ (47 :: 42 :: r : List Byte).length := by rw [hc1]; simp
              cases emit with
              | true =>
                  rw [if_pos rfl]
                  have hsub : lb.pos - l.pos = c.length := by omega
                  rw [hsub]
                  refine .inl ⟨_, _, rfl, NextOk.token h2 h3 h4 h5 (by decide) (by simp) (by omega) hlen
                    (by rw [hc2]) ?_⟩
                  intro _
                  rw [hb3, hc1, List.take_left, hc3]
              | false =>
                  rw [if_neg (by simp)]
                  rcases next_spec false src hz f lb (by rw [hc2]; omega) (by rw [hc2]; omega)
                    with ⟨t, l', hn, hok⟩ | hu
                  · refine .inl ⟨t, l', hn, ?_⟩
                    rw [hc2, ← List.drop_drop, hdrop, hc1, List.drop_left] at hok
                    rw [hc1]
                    refine NextOk.comment h2 (fun h r' hr' _ hbl => hc4.2 h r' hr' hbl) ?_ ?_ hok
                    · rw [hc2, h4]
                    · rw [hb3, hc3]; simp only [h5]
                  · exact .inr hu
            · rw [if_neg hbc]
              have h0 : rd s 0 = .ok a := by rw [hsr, rd_lt (by simp)]; rfl
              have ha0 : a ≠ 0 := by
                rintro rfl
                apply hz
                have : (0 : Byte) ∈ src.drop l.pos := by rw [hdrop, hsr]; simp
                exact List.mem_of_mem_drop this
              rcases raw_spec h0 ha0 (head_space10 (h3 a (by rw [hsr]; rfl)))
                with ⟨k, n, hr, hn1, hn2, hk, hnl⟩ | ⟨hu, hg⟩
              · rw [hr, Run.ok_bind]
                refine .inl ⟨_, _, rfl, NextOk.token h2 h3 h4 h5 hk.1 (fun _ => hk.2) hn1 hn2 ?_ ?_⟩
                · unfold advance; split <;> rfl
                · intro hor
                  unfold advance
                  split
                  · rw [count_spec]
                  · rename_i hns
                    have : 10 ∉ s.take n := by
                      rcases hnl with h | h | h | h | h
                      · exact h
                      · rcases hor with h' | h'
                        · exact absurd h h'
                        · exact h'
                      · exact absurd (.inl h) hns
                      · exact absurd (.inr (.inl h)) hns
                      · exact absurd (.inr (.inr h)) hns
                    rw [not_mem_count this]; rfl
              · refine .inr ⟨by rw [hu]; rfl, fun hgood => hg ?_⟩
                rw [← hdrop]; exact hgood.drop _

/-! ## all tokens -/

theorem lexFrom_spec (emit : Bool) (src : List Byte) (hz : 0 ∉ src) :
    ∀ (f : Nat) (l : Lex), l.pos ≤ src.length → src.length - l.pos < f →
    (∃ ts, lexFrom emit src f l = .ok ts ∧ Covers emit (src.drop l.pos) l.pos ts ∧
      (l.line = lineAt src l.pos → (∀ t ∈ ts, t.kind = .char → 10 ∉ textOf src t) →
        ∀ t ∈ ts, t.line = lineAt src t.start)) ∨
    (lexFrom emit src f l = .ub ∧ ¬ Good src)
  | 0, l, _, hf => by omega
  | f + 1, l, hle, hf => by
      unfold lexFrom
      rcases next_spec emit src hz (src.length + 1) l hle (by omega) with ⟨t, l', hn, hok⟩ | ⟨hu, hg⟩
      · rw [hn, Run.ok_bind]
        obtain ⟨gap, text, rest, h1, h2, hem, h3, h4, h5, h6, h7, h9, h8⟩ := hok
        have hlen : src.length - l.pos = gap.length + (text.length + rest.length) := by
          have := congrArg List.length h1
          simpa using this
        have htext : textOf src t = text := by
          unfold textOf
          rw [h3, h4, ← List.drop_drop, h1, List.drop_left, List.take_left]
        have hline0 : l.line = lineAt src l.pos → t.line = lineAt src t.start := by
          intro hl
          rw [h6, hl, h3]
          unfold lineAt
          rw [List.take_add, h1, List.take_left, List.count_append]; omega
        by_cases he : t.kind = .eof
        · rw [if_pos he]
          refine .inl ⟨[t], rfl, ?_, ?_⟩
          · refine ⟨gap, text, rest, h1, h2, hem.1, hem.2, h3, h4, .inl ⟨rfl, he, ?_⟩⟩
            rcases h8 with h8 | h8
            · exact h8.2
            · exact absurd he h8.1
          · intro hl _ x hx
            simp only [List.mem_singleton] at hx
            subst hx; exact hline0 hl
        · rw [if_neg he]
          have htne : text ≠ [] := by
            rcases h8 with h8 | h8
            · exact absurd h8.1 he
            · exact h8.2
          have htpos : 0 < text.length := List.length_pos_iff.2 htne
          have hdrop : src.drop l'.pos = rest := by
            rw [h5, h3, h4, ← List.drop_drop, ← List.drop_drop, h1, List.drop_left, List.drop_left]
          rcases lexFrom_spec emit src hz f l' (by omega) (by omega) with ⟨ts, hts, hc, hlines⟩ | ⟨hu, hg⟩
          · rw [hts, Run.ok_bind]
            refine .inl ⟨t :: ts, rfl, ?_, ?_⟩
            · refine ⟨gap, text, rest, h1, h2, hem.1, hem.2, h3, h4, .inr ⟨he, htne, ?_⟩⟩
              rw [hdrop, h5] at hc; exact hc
            · intro hl hch x hx
              simp only [List.mem_cons] at hx
              rcases hx with rfl | hx
              · exact hline0 hl
              · refine hlines ?_ (fun y hy => hch y (by simp [hy])) x hx
                have h10 : t.kind ≠ .char ∨ 10 ∉ text := by
                  by_cases hk : t.kind = .char
                  · right; rw [← htext]; exact hch t (by simp) hk
                  · exact .inl hk
                rw [h7 h10, hline0 hl, h5, h3, h4]
                unfold lineAt
                rw [List.take_add (i := l.pos + gap.length), ← List.drop_drop, h1, List.drop_left,
                  List.take_left, List.count_append]
                omega
          · exact .inr ⟨by rw [hu]; rfl, hg⟩
      · exact .inr ⟨by rw [hu]; rfl, hg⟩

/-- C21 (partial): tokenising a text that does not end in `'` or a backslash ends, reads nothing
behind the terminator, and the tokens with the white space and comments between them are exactly
the text.  Missing: texts ending in `'` or backslash, where the code reads behind the terminator
(`lex_open_char_violated`, `lex_open_string_violated`). -/
theorem lex_covers_partial (emit : Bool) (src : List Byte) (hz : 0 ∉ src) (h92 : src.getLast? ≠ some 92)
    (h39 : src.getLast? ≠ some 39) :
    ∃ ts, lex emit src = .ok ts ∧ Covers emit src 0 ts := by
  rcases lexFrom_spec emit src hz (src.length + 1) init (Nat.zero_le _) (by simp [init])
    with ⟨ts, h1, h2, _⟩ | ⟨_, hg⟩
  · exact ⟨ts, h1, h2⟩
  · exact absurd ⟨h92, h39⟩ hg

/-- tokenising always ends: no text makes the lexer loop -/
theorem lex_terminates (emit : Bool) (src : List Byte) (hz : 0 ∉ src) : lex emit src ≠ .hang := by
  rcases lexFrom_spec emit src hz (src.length + 1) init (Nat.zero_le _) (by simp [init])
    with ⟨ts, h1, _⟩ | ⟨h1, _⟩ <;> (unfold lex; rw [h1]; simp)

/-- C22 (partial): the line of every token is one plus the newlines before it, provided that no
character literal contains a newline.  Missing: exactly such literals
(`lex_line_char_violated`). -/
theorem lex_lines_partial (emit : Bool) (src : List Byte) (hz : 0 ∉ src) (ts : List Tok)
    (h : lex emit src = .ok ts) (hch : ∀ t ∈ ts, t.kind = .char → 10 ∉ textOf src t) :
    ∀ t ∈ ts, t.line = lineAt src t.start := by
  rcases lexFrom_spec emit src hz (src.length + 1) init (Nat.zero_le _) (by simp [init])
    with ⟨ts', h1, _, h2⟩ | ⟨h1, _⟩
  · rw [lex, h1] at h
    cases h
    exact h2 rfl hch
  · rw [lex, h1] at h; cases h

/-- tokens lie one behind the other, in the text -/
theorem Covers.sorted {emit : Bool} : ∀ (ts : List Tok) (s : List Byte) (p : Nat),
    Covers emit s p ts → (∀ t ∈ ts, p ≤ t.start ∧ t.start + t.len ≤ p + s.length) ∧
      ts.Pairwise (fun a b => a.start < b.start ∧ a.start + a.len ≤ b.start) ∨ ts.length = 0
  | [], _, _, h => absurd h id
  | t :: ts, s, p, ⟨gap, text, rest, h1, _, _, _, h3, h4, h5⟩ => by
      left
      rcases h5 with ⟨rfl, _, rfl, rfl⟩ | ⟨_, hne, hc⟩
      · refine ⟨?_, by simp⟩
        intro x hx
        simp only [List.mem_singleton] at hx
        subst hx
        rw [h1]; simp at *; omega
      · have hpos : 0 < text.length := List.length_pos_iff.2 hne
        rcases Covers.sorted ts rest _ hc with ⟨i1, i2⟩ | h0
        · refine ⟨?_, ?_⟩
          · intro x hx
            simp only [List.mem_cons] at hx
            rcases hx with rfl | hx
            · rw [h1]; simp; omega
            · have := i1 x hx
              rw [h1]; simp; omega
          · rw [List.pairwise_cons]
            refine ⟨fun x hx => ?_, i2⟩
            have := i1 x hx; omega
        · rw [List.length_eq_zero_iff.1 h0] at hc; exact absurd hc id

/-- C21 (partial): token ranges are strictly increasing, disjoint and inside the text.  Missing as
in `lex_covers_partial`. -/
theorem lex_increasing_partial (emit : Bool) (src : List Byte) (hz : 0 ∉ src)
    (h92 : src.getLast? ≠ some 92) (h39 : src.getLast? ≠ some 39) :
    ∃ ts, lex emit src = .ok ts ∧ (∀ t ∈ ts, t.start + t.len ≤ src.length) ∧
      ts.Pairwise (fun a b => a.start < b.start ∧ a.start + a.len ≤ b.start) := by
  obtain ⟨ts, h1, h2⟩ := lex_covers_partial emit src hz h92 h39
  rcases Covers.sorted ts src 0 h2 with ⟨h3, h4⟩ | h0
  · exact ⟨ts, h1, fun t ht => by have := (h3 t ht).2; omega, h4⟩
  · rw [List.length_eq_zero_iff.1 h0] at h2; exact absurd h2 id

/-- `a /*x⏎*/ = 'b'⏎` meets the hypotheses; its tokens -/
example : lex false [97, 32, 47, 42, 120, 10, 42, 47, 61, 39, 98, 39, 10]
    = .ok [⟨.ident, 0, 1, 1, 1⟩, ⟨.op, 8, 1, 2, 1⟩, ⟨.char, 9, 3, 2, 2⟩, ⟨.eof, 13, 0, 3, 1⟩] := by
  decide +kernel

/-- C21 refuted: an unfinished character literal at the end of the text -/
theorem lex_open_char_violated : lex false [97, 32, 39] = .ub ∧ lex false [39, 92] = .ub := by
  decide +kernel

/-- C21 refuted: an unfinished string ending in a backslash -/
theorem lex_open_string_violated : lex false [34, 97, 92] = .ub := by decide +kernel

/-- C22 refuted: a newline inside a character literal is not counted -/
theorem lex_line_char_violated : ∃ ts t, lex false [39, 10, 39, 97] = .ok ts ∧ t ∈ ts ∧
    t.line = 1 ∧ lineAt [39, 10, 39, 97] t.start = 2 :=
  ⟨[⟨.char, 0, 3, 1, 1⟩, ⟨.ident, 3, 1, 1, 4⟩, ⟨.eof, 4, 0, 1, 5⟩], ⟨.ident, 3, 1, 1, 4⟩,
    by decide +kernel, by decide, rfl, by decide⟩

end Verif.Lexer
