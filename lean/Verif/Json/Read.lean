import Verif.Json.Props

/-!
# Reading JSON texts of other programs (C178)

`json_round_trip_partial` is about texts the library wrote itself.  Here the text is any one the
grammar of RFC 8259 allows, with white space between the tokens and with the escapes
`\" \\ \/ \n \t \r`.
-/

namespace Verif.Json
open Verif Verif.Str

variable {N : Type}

namespace Spec

/-- RFC 8259, section 2: white space -/
def Ws (w : List Byte) : Prop := ∀ c ∈ w, c = 32 ∨ c = 9 ∨ c = 10 ∨ c = 13

/-- what may stand behind a token -/
def Sep (rest : List Byte) : Prop :=
  rest = [] ∨ ∃ c r, rest = c :: r ∧ (c = 44 ∨ c = 93 ∨ c = 125 ∨ c = 32 ∨ c = 9 ∨ c = 10 ∨ c = 13)

/-- RFC 8259, section 7: the escapes of one byte and what they stand for, without `\b` and `\f` -/
def escapes : List (Byte × Byte) := [(34, 34), (92, 92), (47, 47), (110, 10), (116, 9), (114, 13)]

/-- RFC 8259, section 7: the text between the quotes and the string it stands for -/
inductive Chars : List Byte → List Byte → Prop
  | nil : Chars [] []
  | plain {c t s} : c ≠ 34 → c ≠ 92 → Chars t s → Chars (c :: t) (c :: s)
  | esc {e c t s} : (e, c) ∈ escapes → Chars t s → Chars (92 :: e :: t) (c :: s)

mutual
/-- RFC 8259, section 3: a text and the value it stands for.  The texts of numbers are those the C
library's `strtod` reads (section 6 describes a part of these). -/
inductive Val (io : NumIO N) : List Byte → Json N → Prop
  | null : Val io sNull .null
  | tru : Val io sTrue (.bool true)
  | fls : Val io sFalse (.bool false)
  | num {c t n} : numStart c = true →
      (∀ rest, Sep rest → io.strtod (c :: t ++ rest) = some (n, rest)) → Val io (c :: t) (.num n)
  | str {t s} : Chars t s → s.length < 4096 → Val io (34 :: (t ++ [34])) (.str s)
  | arr0 {w} : Ws w → Val io (91 :: (w ++ [93])) (.arr .nil)
  | arr {t xs} : Els io t xs → Val io (91 :: (t ++ [93])) (.arr xs)
  | obj0 {w} : Ws w → Val io (123 :: (w ++ [125])) (.obj .nil)
  | obj {t es} : Mems io t es → es.keys.Nodup → Val io (123 :: (t ++ [125])) (.obj es)
/-- section 5: the elements -/
inductive Els (io : NumIO N) : List Byte → Items N → Prop
  | one {a t b v} : Ws a → Val io t v → Ws b → Els io (a ++ (t ++ b)) (.cons v .nil)
  | more {a t b v t' xs} : Ws a → Val io t v → Ws b → Els io t' xs →
      Els io (a ++ (t ++ (b ++ 44 :: t'))) (.cons v xs)
/-- section 4: the members -/
inductive Mems (io : NumIO N) : List Byte → Entries N → Prop
  | one {a kt k b c t d v} : Ws a → Chars kt k → k.length < 4096 → Ws b → Ws c → Val io t v → Ws d →
      Mems io (a ++ 34 :: (kt ++ 34 :: (b ++ 58 :: (c ++ (t ++ d))))) (.cons k v .nil)
  | more {a kt k b c t d v t' es} : Ws a → Chars kt k → k.length < 4096 → Ws b → Ws c → Val io t v →
      Ws d → Mems io t' es →
      Mems io (a ++ 34 :: (kt ++ 34 :: (b ++ 58 :: (c ++ (t ++ (d ++ 44 :: t')))))) (.cons k v es)
end

end Spec
open Spec

theorem skipWs_ws : ∀ (w p : List Byte), Ws w → skipWs (w ++ p) = skipWs p
  | [], _, _ => rfl
  | c :: w, p, h => by
      have hc := h c (by simp)
      rw [List.cons_append, skipWs, if_pos hc]
      exact skipWs_ws w p fun d hd => h d (by simp [hd])

theorem skipWs_idem : ∀ p : List Byte, skipWs (skipWs p) = skipWs p
  | [] => rfl
  | c :: p => by
      by_cases h : c = 32 ∨ c = 9 ∨ c = 10 ∨ c = 13
      · rw [skipWs, if_pos h, skipWs_idem p]
      · rw [skipWs, if_neg h, skipWs, if_neg h]

theorem parseValue_skip (io : NumIO N) (tb : Table N) (f : Nat) (p : List Byte) :
    parseValue io tb f (skipWs p) = parseValue io tb f p := by
  cases f with
  | zero => simp only [parseValue]
  | succ f => simp only [parseValue, skipWs_idem]

theorem arrLoop_skip (io : NumIO N) (tb : Table N) (f : Nat) (xs : Items N) (p : List Byte) :
    arrLoop io tb f xs (skipWs p) = arrLoop io tb f xs p := by
  cases f with
  | zero => simp only [arrLoop]
  | succ f => simp only [arrLoop, skipWs_idem]

theorem objLoop_skip (io : NumIO N) (tb : Table N) (f : Nat) (es : Entries N) (p : List Byte) :
    objLoop io tb f es (skipWs p) = objLoop io tb f es p := by
  cases f with
  | zero => simp only [objLoop]
  | succ f => simp only [objLoop, skipWs_idem]

theorem escapes_unesc {e c : Byte} (h : (e, c) ∈ escapes) : unesc e = c := by
  simp only [escapes, List.mem_cons, List.not_mem_nil, or_false, Prod.mk.injEq] at h
  rcases h with ⟨rfl, rfl⟩ | ⟨rfl, rfl⟩ | ⟨rfl, rfl⟩ | ⟨rfl, rfl⟩ | ⟨rfl, rfl⟩ | ⟨rfl, rfl⟩ <;> rfl

theorem strLoop_chars {t s : List Byte} (h : Chars t s) : ∀ (buf rest : List Byte),
    buf.length + s.length < 4096 → strLoop (t ++ 34 :: rest) buf = .ok (buf ++ s, rest) := by
  induction h with
  | nil =>
      intro buf rest hl
      simp only [List.length_nil, Nat.add_zero] at hl
      rw [List.nil_append, strLoop.eq_def]
      simp [bufPut_ok hl]
  | plain h1 h2 _ ih =>
      intro buf rest hl
      simp only [List.length_cons] at hl
      rw [List.cons_append, strLoop.eq_def]
      simp [h1, h2, bufPut_ok (show buf.length < 4096 by omega),
        ih (buf ++ [_]) rest (by simp only [List.length_append, List.length_cons, List.length_nil]; omega)]
  | esc he _ ih =>
      intro buf rest hl
      simp only [List.length_cons] at hl
      rw [List.cons_append, List.cons_append, strLoop.eq_def]
      simp [escapes_unesc he, bufPut_ok (show buf.length < 4096 by omega),
        ih (buf ++ [_]) rest (by simp only [List.length_append, List.length_cons, List.length_nil]; omega)]

theorem parseString_chars {t s : List Byte} (h : Chars t s) (hl : s.length < 4096) (rest : List Byte) :
    parseString (34 :: (t ++ 34 :: rest)) = .ok (some (s, rest)) := by
  simp [parseString, cur, adv, strLoop_chars h [] rest (by simpa using hl)]

theorem val_head {io : NumIO N} {t : List Byte} {v : Json N} (h : Val io t v) :
    ∃ c r, t = c :: r ∧ NonWs c ∧ c ≠ 93 := by
  cases h with
  | null => exact ⟨110, _, rfl, by simp [NonWs], by decide⟩
  | tru => exact ⟨116, _, rfl, by simp [NonWs], by decide⟩
  | fls => exact ⟨102, _, rfl, by simp [NonWs], by decide⟩
  | num hs _ =>
      obtain ⟨_, _, _, _, h5, h6, h7, h8, h9, _⟩ := numStart_ne hs
      exact ⟨_, _, rfl, ⟨h5, h6, h7, h8⟩, h9⟩
  | str _ _ => exact ⟨34, _, rfl, by simp [NonWs], by decide⟩
  | arr0 _ => exact ⟨91, _, rfl, by simp [NonWs], by decide⟩
  | arr _ => exact ⟨91, _, rfl, by simp [NonWs], by decide⟩
  | obj0 _ => exact ⟨123, _, rfl, by simp [NonWs], by decide⟩
  | obj _ _ => exact ⟨123, _, rfl, by simp [NonWs], by decide⟩

theorem val_skip {io : NumIO N} {t : List Byte} {v : Json N} (h : Val io t v) (a p : List Byte)
    (ha : Ws a) : skipWs (a ++ (t ++ p)) = t ++ p := by
  obtain ⟨c, r, rfl, hc, _⟩ := val_head h
  rw [skipWs_ws a _ ha, List.cons_append, skipWs_cons hc]

theorem ws_sep {w : List Byte} (h : Ws w) {c : Byte} (hc : c = 44 ∨ c = 93 ∨ c = 125) (r : List Byte) :
    Sep (w ++ c :: r) := by
  cases w with
  | nil => exact .inr ⟨c, r, rfl, by rcases hc with h | h | h <;> simp [h]⟩
  | cons d w => exact .inr ⟨d, _, rfl, .inr (.inr (.inr (h d (by simp))))⟩

theorem ws_punct {w : List Byte} (h : Ws w) {c : Byte} (hc : NonWs c) (r : List Byte) :
    skipWs (w ++ c :: r) = c :: r := by rw [skipWs_ws w _ h, skipWs_cons hc]

theorem els_head {io : NumIO N} {t : List Byte} {xs : Items N} (h : Els io t xs) (p : List Byte) :
    cur (skipWs (t ++ p)) ≠ 93 := by
  cases h with
  | one ha hv hb =>
      rw [List.append_assoc, List.append_assoc, val_skip hv _ _ ha]
      obtain ⟨c, r, rfl, _, h93⟩ := val_head hv
      simpa [cur] using h93
  | more ha hv hb _ =>
      rw [List.append_assoc, List.append_assoc, val_skip hv _ _ ha]
      obtain ⟨c, r, rfl, _, h93⟩ := val_head hv
      simpa [cur] using h93

theorem mems_head {io : NumIO N} {t : List Byte} {es : Entries N} (h : Mems io t es) (p : List Byte) :
    cur (skipWs (t ++ p)) = 34 := by
  cases h with
  | one ha _ _ _ _ _ _ =>
      rw [List.append_assoc, List.cons_append, ws_punct ha (by simp [NonWs])]; rfl
  | more ha _ _ _ _ _ _ _ =>
      rw [List.append_assoc, List.cons_append, ws_punct ha (by simp [NonWs])]; rfl

mutual
theorem parseValue_val (io : NumIO N) (tb : Table N) : ∀ (f : Nat) (t : List Byte) (v : Json N),
    Val io t v → ∀ (rest : List Byte), Sep rest → 2 * (t ++ rest).length + 1 ≤ f →
    ∃ w, parseValue io tb f (t ++ rest) = .ok (some (w, rest)) ∧ Eqv v w
  | 0, _, _, _, _, _, hf => by omega
  | f + 1, _, _, .null, rest, _, _ =>
      ⟨.null, by simp [sNull, parseValue, skipWs, startsWith], rfl⟩
  | f + 1, _, _, .tru, rest, _, _ =>
      ⟨.bool true, by simp [sNull, sTrue, parseValue, skipWs, startsWith], rfl⟩
  | f + 1, _, _, .fls, rest, _, _ =>
      ⟨.bool false, by simp [sNull, sTrue, sFalse, parseValue, skipWs, startsWith], rfl⟩
  | f + 1, _, _, .num (n := n) hs hrd, rest, hr, hf => by
      refine ⟨.num n, ?_, rfl⟩
      have hrd := hrd rest hr
      obtain ⟨n1, n2, n3, n4, h5, h6, h7, h8, h9, h10⟩ := numStart_ne hs
      simp only [List.cons_append] at hrd ⊢
      simp [parseValue, skipWs, h5, h6, h7, h8, startsWith, sNull, sTrue, sFalse, cur, n4, hs, hrd, Ne.symm n1, Ne.symm n2, Ne.symm n3]
  | f + 1, _, _, .str (s := s) h hl, rest, hr, hf => by
      refine ⟨.str s, ?_, rfl⟩
      have := parseString_chars h hl rest
      simp [parseValue, skipWs, startsWith, sNull, sTrue, sFalse, cur, this]
  | f + 1, _, _, .arr0 (w := w) h, rest, hr, hf => by
      refine ⟨.arr .nil, ?_, .nil, rfl, rfl⟩
      have := ws_punct h (c := 93) (by simp [NonWs]) rest
      simp only [parseValue, List.cons_append, List.append_assoc, List.nil_append]
      rw [skipWs_cons (by simp [NonWs])]
      simp [startsWith, sNull, sTrue, sFalse, cur, numStart, adv, this]
  | f + 1, _, _, .obj0 (w := w) h, rest, hr, hf => by
      refine ⟨.obj .nil, ?_, .nil, rfl, fun k hk => by simp [Entries.get] at hk, trivial⟩
      have := ws_punct h (c := 125) (by simp [NonWs]) rest
      simp only [parseValue, List.cons_append, List.append_assoc, List.nil_append]
      rw [skipWs_cons (by simp [NonWs])]
      simp [startsWith, sNull, sTrue, sFalse, cur, numStart, adv, this]
  | f + 1, _, _, .arr (t := t) (xs := xs) h, rest, hr, hf => by
      simp only [List.length_append, List.length_cons, List.length_nil] at hf
      obtain ⟨ys, hp, he⟩ := arrLoop_els io tb f t xs h .nil rest
        (by simp only [List.length_append, List.length_cons]; omega)
      refine ⟨_, ?_, ys, rfl, he⟩
      have h93 := els_head h (93 :: rest)
      simp only [parseValue, List.cons_append, List.append_assoc, List.nil_append]
      rw [skipWs_cons (by simp [NonWs])]
      rw [← arrLoop_skip] at hp
      simp only [Items.app] at hp
      simp [startsWith, sNull, sTrue, sFalse, numStart, adv, show cur (91 :: (t ++ 93 :: rest)) = 91 from rfl, h93, hp]
  | f + 1, _, _, .obj (t := t) (es := es) h hnd, rest, hr, hf => by
      simp only [List.length_append, List.length_cons, List.length_nil] at hf
      obtain ⟨fs, hp, hk, he⟩ := objLoop_mems io tb f t es h hnd .nil rest
        (by simp only [List.length_append, List.length_cons]; omega)
      refine ⟨_, ?_, fs, rfl, ?_, he⟩
      · have h34 := mems_head h (125 :: rest)
        simp only [parseValue, List.cons_append, List.append_assoc, List.nil_append]
        rw [skipWs_cons (by simp [NonWs])]
        rw [← objLoop_skip] at hp
        simp [startsWith, sNull, sTrue, sFalse, numStart, adv, show cur (123 :: (t ++ 125 :: rest)) = 123 from rfl, h34, hp]
      · intro q hq
        refine Classical.byContradiction fun hn => ?_
        rw [hk q hn] at hq
        simp [Entries.get] at hq
  termination_by f => f
theorem arrLoop_els (io : NumIO N) (tb : Table N) : ∀ (f : Nat) (t : List Byte) (xs : Items N),
    Els io t xs → ∀ (acc : Items N) (rest : List Byte), 2 * (t ++ 93 :: rest).length + 2 ≤ f →
    ∃ ys, arrLoop io tb f acc (t ++ 93 :: rest) = .ok (some (.arr (acc.app ys), rest)) ∧
      Eqv.EqvItems xs ys
  | 0, _, _, _, _, _, hf => by omega
  | f + 1, _, _, .one (a := a) (t := t) (b := b) (v := v) ha hv hb, acc, rest, hf => by
      simp only [List.length_append, List.length_cons] at hf
      obtain ⟨w, hw, hvw⟩ := parseValue_val io tb f t v hv (b ++ 93 :: rest) (ws_sep hb (by simp) _)
        (by simp only [List.length_append, List.length_cons]; omega)
      refine ⟨.cons w .nil, ?_, w, .nil, rfl, hvw, rfl⟩
      simp only [arrLoop, List.append_assoc, val_skip hv _ _ ha, hw, Run.ok_bind,
        ws_punct hb (show NonWs 93 by simp [NonWs])]
      simp [cur, adv, Items.snoc_eq]
  | f + 1, _, _, .more (a := a) (t := t) (b := b) (v := v) (t' := t') (xs := xs) ha hv hb hx, acc, rest, hf => by
      simp only [List.length_append, List.length_cons] at hf
      obtain ⟨w, hw, hvw⟩ := parseValue_val io tb f t v hv (b ++ 44 :: (t' ++ 93 :: rest))
        (ws_sep hb (by simp) _) (by simp only [List.length_append, List.length_cons]; omega)
      obtain ⟨ys, hp, he⟩ := arrLoop_els io tb f t' xs hx (acc.snoc w) rest
        (by simp only [List.length_append, List.length_cons]; omega)
      refine ⟨.cons w ys, ?_, w, ys, rfl, hvw, he⟩
      simp only [arrLoop, List.append_assoc, List.cons_append, val_skip hv _ _ ha, hw, Run.ok_bind,
        ws_punct hb (show NonWs 44 by simp [NonWs])]
      simp [cur, adv, hp, Items.snoc_app]
  termination_by f => f
theorem objLoop_mems (io : NumIO N) (tb : Table N) : ∀ (f : Nat) (t : List Byte) (es : Entries N),
    Mems io t es → es.keys.Nodup → ∀ (acc : Entries N) (rest : List Byte),
    2 * (t ++ 125 :: rest).length + 2 ≤ f →
    ∃ fs, objLoop io tb f acc (t ++ 125 :: rest) = .ok (some (.obj fs, rest)) ∧
      (∀ q, q ∉ es.keys → fs.get q = acc.get q) ∧ Eqv.EqvEntries es fs
  | 0, _, _, _, _, _, _, hf => by omega
  | f + 1, _, _, .one (a := a) (kt := kt) (k := k) (b := b) (c := c) (t := t) (d := d) (v := v)
      ha hk hkl hb hc hv hd, hnd, acc, rest, hf => by
      simp only [List.length_append, List.length_cons] at hf
      obtain ⟨w, hw, hvw⟩ := parseValue_val io tb f t v hv (d ++ 125 :: rest) (ws_sep hd (by simp) _)
        (by simp only [List.length_append, List.length_cons]; omega)
      refine ⟨tb.put acc k w, ?_, ?_, ⟨w, ?_, hvw⟩, trivial⟩
      · simp only [objLoop, List.append_assoc, List.cons_append,
          ws_punct ha (show NonWs 34 by simp [NonWs]), parseString_chars hk hkl, Run.ok_bind,
          ws_punct hb (show NonWs 58 by simp [NonWs])]
        simp only [cur, List.headD_cons, adv, Run.ok_bind, val_skip hv _ _ hc, hw,
          ws_punct hd (show NonWs 125 by simp [NonWs])]
        simp
      · intro q hq
        simp only [Entries.keys, List.mem_cons, not_or] at hq
        simp [tb.get_put, hq.1]
      · simp [tb.get_put]
  | f + 1, _, _, .more (a := a) (kt := kt) (k := k) (b := b) (c := c) (t := t) (d := d) (v := v)
      (t' := t') (es := es) ha hk hkl hb hc hv hd hm, hnd, acc, rest, hf => by
      simp only [List.length_append, List.length_cons] at hf
      obtain ⟨w, hw, hvw⟩ := parseValue_val io tb f t v hv (d ++ 44 :: (t' ++ 125 :: rest))
        (ws_sep hd (by simp) _) (by simp only [List.length_append, List.length_cons]; omega)
      have hnd' : k ∉ es.keys ∧ es.keys.Nodup := by
        rw [show (Entries.cons k v es).keys = k :: es.keys from rfl, List.nodup_cons] at hnd
        exact hnd
      obtain ⟨fs, hp, hq, he⟩ := objLoop_mems io tb f t' es hm hnd'.2 (tb.put acc k w) rest
        (by simp only [List.length_append, List.length_cons]; omega)
      refine ⟨fs, ?_, ?_, ⟨w, ?_, hvw⟩, he⟩
      · simp only [objLoop, List.append_assoc, List.cons_append,
          ws_punct ha (show NonWs 34 by simp [NonWs]), parseString_chars hk hkl, Run.ok_bind,
          ws_punct hb (show NonWs 58 by simp [NonWs])]
        simp only [cur, List.headD_cons, adv, Run.ok_bind, val_skip hv _ _ hc, hw,
          ws_punct hd (show NonWs 44 by simp [NonWs])]
        simp [hp]
      · intro q hn
        simp only [Entries.keys, List.mem_cons, not_or] at hn
        rw [hq q hn.2, tb.get_put]
        simp [hn.1]
      · rw [hq k hnd'.1, tb.get_put]; simp
  termination_by f => f
end

/-- C178 (partial): every text of the grammar, with any white space before, between and behind its
tokens, is read as the value it stands for.  Missing from the full claim: the escapes `\b`, `\f`
and `\u` (`json_escape_violated`), strings and keys of 4096 bytes or more
(`json_long_string_violated`), and objects with a repeated key (RFC 8259 leaves these open). -/
theorem json_read_partial (io : NumIO N) (tb : Table N) (a t b : List Byte) (v : Json N)
    (ha : Ws a) (h : Val io t v) (hb : Ws b) :
    ∃ w, parse io tb (a ++ t ++ b) = .ok (some w) ∧ Eqv v w := by
  have hs : Sep b := by
    cases b with
    | nil => exact .inl rfl
    | cons c b => exact .inr ⟨c, b, rfl, .inr (.inr (.inr (hb c (by simp))))⟩
  obtain ⟨w, hw, he⟩ := parseValue_val io tb (2 * (a ++ t ++ b).length + 2) t v h b hs
    (by simp only [List.length_append]; omega)
  refine ⟨w, ?_, he⟩
  have e : parseValue io tb (2 * (a ++ t ++ b).length + 2) (a ++ t ++ b)
      = parseValue io tb (2 * (a ++ t ++ b).length + 2) (t ++ b) := by
    rw [← parseValue_skip, List.append_assoc, skipWs_ws _ _ ha, parseValue_skip]
  simp only [parse, e, hw, Run.ok_bind, Run.pure_eq, Option.map_some]

theorem strLoop_open {t s : List Byte} (h : Chars t s) : ∀ (buf rest : List Byte),
    buf.length + s.length < 4096 → strLoop (t ++ rest) buf = strLoop rest (buf ++ s) := by
  induction h with
  | nil => intro buf rest _; simp
  | plain h1 h2 _ ih =>
      intro buf rest hl
      simp only [List.length_cons] at hl
      rw [List.cons_append, strLoop.eq_def]
      simp [h1, h2, bufPut_ok (show buf.length < 4096 by omega),
        ih (buf ++ [_]) rest (by simp only [List.length_append, List.length_cons, List.length_nil]; omega)]
  | esc he _ ih =>
      intro buf rest hl
      simp only [List.length_cons] at hl
      rw [List.cons_append, List.cons_append, strLoop.eq_def]
      simp [escapes_unesc he, bufPut_ok (show buf.length < 4096 by omega),
        ih (buf ++ [_]) rest (by simp only [List.length_append, List.length_cons, List.length_nil]; omega)]

/-- C178 refuted: wherever a string holds one of the escapes `\b`, `\f`, `\u`, the letter is read
instead of the character the escape stands for (a backspace, a form feed, the character with the
four hexadecimal digits behind `u`, which stay in the string as they are). -/
theorem json_escape_violated (io : NumIO N) (tb : Table N) (e : Byte) (he : e = 98 ∨ e = 102 ∨ e = 117)
    (t s t' s' : List Byte) (h : Chars t s) (h' : Chars t' s') (hl : s.length + s'.length < 4095) :
    parse io tb (34 :: (t ++ 92 :: e :: (t' ++ [34]))) = .ok (some (.str (s ++ e :: s'))) := by
  have hu : unesc e = e := by rcases he with rfl | rfl | rfl <;> rfl
  have h1 : strLoop (t ++ 92 :: e :: (t' ++ [34])) [] = .ok (s ++ e :: s', []) := by
    rw [strLoop_open h [] _ (by simp only [List.length_nil]; omega), strLoop.eq_def]
    simp only [List.nil_append]
    rw [if_neg (by decide), if_pos trivial, bufPut_ok (by omega), Run.ok_bind, hu,
      strLoop_chars h' _ [] (by simp only [List.length_append, List.length_cons, List.length_nil]; omega)]
    simp
  simp [parse, parseValue, skipWs, startsWith, sNull, sTrue, sFalse, cur, parseString, adv, h1]

/-- the number 1 of the example: `strtod` ends behind it -/
theorem one_read (rest : List Byte) (h : Sep rest) : intIO.strtod ([49] ++ rest) = some (1, rest) := by
  rcases h with rfl | ⟨c, r, rfl, h⟩
  · rfl
  · rcases h with rfl | rfl | rfl | rfl | rfl | rfl | rfl <;>
      simp [intIO, strtodInt, strtodNat, readDigits, isDig, readFrac, readExp]

/-- The text `{ "a\n" : [ 1 ,␍␊true ] , "b":{ } }` with a line end behind it is one of the grammar:
an array inside an object, an escape in a key, blanks and a line end of both bytes. -/
example : ∃ v, Val intIO ([123, 32, 34, 97, 92, 110, 34, 32, 58, 32, 91, 32, 49, 32, 44, 13, 10, 116, 114, 117, 101,
      32, 93, 32, 44, 32, 34, 98, 34, 58, 123, 32, 125, 32, 125] : List Byte) v ∧
    ∃ w, parse intIO lastTable ([123, 32, 34, 97, 92, 110, 34, 32, 58, 32, 91, 32, 49, 32, 44, 13, 10, 116, 114, 117,
      101, 32, 93, 32, 44, 32, 34, 98, 34, 58, 123, 32, 125, 32, 125] ++ [13, 10] : List Byte) = .ok (some w) ∧
      Eqv v w := by
  have hn : Val intIO [49] (.num 1) := .num (by decide) one_read
  have ha : Val intIO (91 :: ([32] ++ ([49] ++ ([32] ++ 44 :: ([13, 10] ++ (sTrue ++ [32])))) ++ [93]))
      (.arr (.cons (.num 1) (.cons (.bool true) .nil))) :=
    .arr (.more (by simp [Ws]) hn (by simp [Ws]) (.one (by simp [Ws]) .tru (by simp [Ws])))
  have ho : Val intIO (123 :: ([32] ++ [125])) (.obj .nil) := .obj0 (by simp [Ws])
  have hk : Chars [97, 92, 110] [97, 10] :=
    .plain (by decide) (by decide) (.esc (by simp [escapes]) .nil)
  have hk' : Chars [98] [98] := .plain (by decide) (by decide) .nil
  have hv := Val.obj (Mems.more (a := [32]) (b := [32]) (c := [32]) (d := [32]) (by simp [Ws]) hk (by decide)
    (by simp [Ws]) (by simp [Ws]) ha (by simp [Ws])
    (Mems.one (a := [32]) (b := []) (c := []) (d := [32]) (by simp [Ws]) hk' (by decide) (by simp [Ws])
      (by simp [Ws]) ho (by simp [Ws]))) (by simp [Entries.keys])
  refine ⟨_, hv, ?_⟩
  exact json_read_partial intIO lastTable [] _ [13, 10] _ (by simp [Ws]) hv (by simp [Ws])

end Verif.Json
