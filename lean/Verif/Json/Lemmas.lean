import Verif.Json.Model

/-! # Lemmas about the JSON model -/

namespace Verif.Json
open Verif Verif.Str

variable {N : Type}

namespace Spec

/-- what may stand after a value inside a document -/
def Follow (rest : List Byte) : Prop :=
  rest = [] ∨ ∃ c r, rest = c :: r ∧ (c = 44 ∨ c = 93 ∨ c = 125)

/-- a number whose written form is read back as the same number -/
def Readable (io : NumIO N) (n : N) : Prop :=
  (∃ c t, io.fmt n = c :: t ∧ numStart c = true) ∧
  ∀ rest, Follow rest → io.strtod (io.fmt n ++ rest) = some (n, rest)

/-- text of a string value that survives: no NUL (it is a C string), no backspace or form feed,
at most 4095 bytes -/
def PlainText (t : List Byte) : Prop := 0 ∉ t ∧ 8 ∉ t ∧ 12 ∉ t ∧ t.length < 4096

/-- key that survives: no NUL, no quote, no backslash, at most 4095 bytes -/
def PlainKey (k : List Byte) : Prop := 0 ∉ k ∧ 34 ∉ k ∧ 92 ∉ k ∧ k.length < 4096

/-- values for which the round trip holds -/
def Good (io : NumIO N) : Json N → Prop
  | .null => True
  | .bool _ => True
  | .num n => Readable io n
  | .str t => PlainText t
  | .arr xs => GoodItems xs
  | .obj es => es.keys.Nodup ∧ GoodEntries es
where
  /-- every element -/
  GoodItems : Items N → Prop
    | .nil => True
    | .cons v xs => Good io v ∧ GoodItems xs
  /-- every entry -/
  GoodEntries : Entries N → Prop
    | .nil => True
    | .cons k v es => PlainKey k ∧ Good io v ∧ GoodEntries es

end Spec
open Spec

/-- concatenation of arrays -/
def Items.app : Items N → Items N → Items N
  | .nil, ys => ys
  | .cons v xs, ys => .cons v (xs.app ys)

theorem Items.snoc_app : ∀ (xs ys : Items N) (v : Json N),
    (xs.snoc v).app ys = xs.app (.cons v ys)
  | .nil, _, _ => rfl
  | .cons w xs, ys, v => by simp [Items.snoc, Items.app, Items.snoc_app xs]

theorem Items.snoc_eq : ∀ (xs : Items N) (v : Json N), xs.snoc v = xs.app (.cons v .nil)
  | .nil, _ => rfl
  | .cons w xs, v => by simp [Items.snoc, Items.app, Items.snoc_eq xs]

/-- not a blank -/
def NonWs (c : Byte) : Prop := c ≠ 32 ∧ c ≠ 9 ∧ c ≠ 10 ∧ c ≠ 13

theorem skipWs_cons {c : Byte} (h : NonWs c) (p : List Byte) : skipWs (c :: p) = c :: p := by
  obtain ⟨h1, h2, h3, h4⟩ := h
  simp [skipWs, h1, h2, h3, h4]

theorem skipWs_length : ∀ p : List Byte, (skipWs p).length ≤ p.length
  | [] => by simp [skipWs]
  | c :: p => by
      simp only [skipWs]
      split
      · have := skipWs_length p; simp only [List.length_cons]; omega
      · simp

theorem follow_skipWs {rest : List Byte} (h : Follow rest) : skipWs rest = rest := by
  rcases h with rfl | ⟨c, r, rfl, h⟩
  · rfl
  · apply skipWs_cons
    rcases h with rfl | rfl | rfl <;> simp [NonWs]

/-! ## strings -/

theorem bufPut_ok {buf : List Byte} {c : Byte} (h : buf.length < 4096) :
    bufPut buf c = .ok (buf ++ [c]) := by simp [bufPut, h]

theorem strLoop_esc : ∀ (t buf rest : List Byte), 8 ∉ t → 12 ∉ t → buf.length + t.length < 4096 →
    strLoop (escText t ++ 34 :: rest) buf = .ok (buf ++ t, rest)
  | [], buf, rest, _, _, hl => by
      simp only [List.length_nil, Nat.add_zero] at hl
      rw [escText, List.nil_append, strLoop.eq_def]
      simp [bufPut_ok hl]
  | c :: t, buf, rest, h8, h12, hl => by
      simp only [List.length_cons] at hl
      simp only [List.mem_cons, not_or] at h8 h12
      have hb : buf.length < 4096 := by omega
      have ih := fun b => strLoop_esc t (buf ++ [b]) rest h8.2 h12.2
        (by simp only [List.length_append, List.length_cons, List.length_nil]; omega)
      have hc : 8 ≠ c ∧ 12 ≠ c := ⟨h8.1, h12.1⟩
      simp only [escText, escByte]
      by_cases e1 : c = 34
      · subst e1; simp [strLoop, bufPut_ok hb, unesc, ih]
      by_cases e2 : c = 92
      · subst e2; simp [strLoop, bufPut_ok hb, unesc, ih]
      by_cases e3 : c = 10
      · subst e3; simp [strLoop, bufPut_ok hb, unesc, ih]
      by_cases e4 : c = 9
      · subst e4; simp [strLoop, bufPut_ok hb, unesc, ih]
      by_cases e5 : c = 13
      · subst e5; simp [strLoop, bufPut_ok hb, unesc, ih]
      have e6 := hc.1.symm
      have e7 := hc.2.symm
      simp only [e1, e2, e3, e4, e5, e6, e7, if_false, List.cons_append, List.nil_append]
      rw [strLoop.eq_def]
      simp [e1, e2, bufPut_ok hb, ih]

theorem strLoop_key : ∀ (k buf rest : List Byte), 34 ∉ k → 92 ∉ k → buf.length + k.length < 4096 →
    strLoop (k ++ 34 :: rest) buf = .ok (buf ++ k, rest)
  | [], buf, rest, _, _, hl => by
      simp only [List.length_nil, Nat.add_zero] at hl
      rw [List.nil_append, strLoop.eq_def]
      simp [bufPut_ok hl]
  | c :: k, buf, rest, h1, h2, hl => by
      simp only [List.length_cons] at hl
      simp only [List.mem_cons, not_or] at h1 h2
      have hb : buf.length < 4096 := by omega
      have ih := strLoop_key k (buf ++ [c]) rest h1.2 h2.2
        (by simp only [List.length_append, List.length_cons, List.length_nil]; omega)
      have e1 := Ne.symm h1.1
      have e2 := Ne.symm h2.1
      rw [List.cons_append, strLoop.eq_def]
      simp [e1, e2, bufPut_ok hb, ih]

theorem parseString_key {k : List Byte} (rest : List Byte) (h : PlainKey k) :
    parseString (34 :: (k ++ 34 :: rest)) = .ok (some (k, rest)) := by
  obtain ⟨_, h1, h2, h3⟩ := h
  simp [parseString, cur, adv, strLoop_key k [] rest h1 h2 (by simpa using h3)]

theorem parseString_esc {t : List Byte} (rest : List Byte) (h : PlainText t) :
    parseString (34 :: (escText t ++ 34 :: rest)) = .ok (some (t, rest)) := by
  obtain ⟨_, h1, h2, h3⟩ := h
  simp [parseString, cur, adv, strLoop_esc t [] rest h1 h2 (by simpa using h3)]

/-! ## first byte of a written value -/

theorem numStart_ne {c : Byte} (h : numStart c = true) : c ≠ 110 ∧ c ≠ 116 ∧ c ≠ 102 ∧ c ≠ 34 ∧
    c ≠ 32 ∧ c ≠ 9 ∧ c ≠ 10 ∧ c ≠ 13 ∧ c ≠ 93 ∧ c ≠ 125 := by
  refine ⟨?_, ?_, ?_, ?_, ?_, ?_, ?_, ?_, ?_, ?_⟩ <;> rintro rfl <;> revert h <;> decide

theorem head_ok (io : NumIO N) : ∀ v : Json N, Good io v →
    ∃ c t, stringify io v = c :: t ∧ NonWs c ∧ c ≠ 93
  | .null, _ => ⟨110, _, rfl, by simp [NonWs], by decide⟩
  | .bool true, _ => ⟨116, _, rfl, by simp [NonWs], by decide⟩
  | .bool false, _ => ⟨102, _, rfl, by simp [NonWs], by decide⟩
  | .num n, h => by
      obtain ⟨⟨c, t, e, hs⟩, _⟩ := h
      obtain ⟨_, _, _, _, h5, h6, h7, h8, h9, h10⟩ := numStart_ne hs
      exact ⟨c, t, by simpa [stringify] using e, ⟨h5, h6, h7, h8⟩, h9⟩
  | .str t, _ => ⟨34, _, by simp [stringify]; rfl, by simp [NonWs], by decide⟩
  | .arr xs, _ => ⟨91, _, by simp [stringify]; rfl, by simp [NonWs], by decide⟩
  | .obj es, _ => ⟨123, _, by simp [stringify]; rfl, by simp [NonWs], by decide⟩

theorem strItems_follow (io : NumIO N) (xs : Items N) (rest : List Byte) :
    Follow (strItems io false xs ++ 93 :: rest) := by
  cases xs with
  | nil => exact .inr ⟨93, rest, by simp [strItems], by simp⟩
  | cons v xs => exact .inr ⟨44, _, by simp [strItems]; rfl, by simp⟩

theorem strEntries_follow (io : NumIO N) (es : Entries N) (rest : List Byte) :
    Follow (strEntries io false es ++ 125 :: rest) := by
  cases es with
  | nil => exact .inr ⟨125, rest, by simp [strEntries], by simp⟩
  | cons k v es => exact .inr ⟨44, _, by simp [strEntries]; rfl, by simp⟩

/-! ## the round trip -/

theorem Entries.get_none : ∀ (es : Entries N) (k : List Byte), k ∉ es.keys → es.get k = none
  | .nil, _, _ => rfl
  | .cons q v es, k, h => by
      simp only [Entries.keys, List.mem_cons, not_or] at h
      simp [Entries.get, Ne.symm h.1, Entries.get_none es k h.2]

theorem eqvEntries_congr : ∀ (es fs gs : Entries N), (∀ k ∈ es.keys, fs.get k = gs.get k) →
    Eqv.EqvEntries es fs → Eqv.EqvEntries es gs
  | .nil, _, _, _, _ => trivial
  | .cons k v es, fs, gs, h, he => by
      obtain ⟨⟨w, hw, hv⟩, he⟩ := he
      refine ⟨⟨w, ?_, hv⟩, eqvEntries_congr es fs gs (fun q hq => h q ?_) he⟩
      · rw [← h k (by simp [Entries.keys])]; exact hw
      · simp [Entries.keys, hq]

mutual
theorem parseValue_str (io : NumIO N) (tb : Table N) : ∀ (v : Json N), Good io v →
    ∀ (rest : List Byte) (f : Nat), Follow rest → 2 * (stringify io v ++ rest).length + 1 ≤ f →
    ∃ w, parseValue io tb f (stringify io v ++ rest) = .ok (some (w, rest)) ∧ Eqv v w
  | .null, _, rest, f, hr, hf => by
      obtain ⟨f, rfl⟩ : ∃ g, f = g + 1 := ⟨f - 1, by omega⟩
      refine ⟨.null, ?_, rfl⟩
      simp [stringify, sNull, parseValue, skipWs, startsWith]
  | .bool b, _, rest, f, hr, hf => by
      obtain ⟨f, rfl⟩ : ∃ g, f = g + 1 := ⟨f - 1, by omega⟩
      refine ⟨.bool b, ?_, rfl⟩
      cases b <;> simp [stringify, sNull, sTrue, sFalse, parseValue, skipWs, startsWith]
  | .num n, h, rest, f, hr, hf => by
      obtain ⟨f, rfl⟩ : ∃ g, f = g + 1 := ⟨f - 1, by omega⟩
      refine ⟨.num n, ?_, rfl⟩
      obtain ⟨⟨c, t, e, hs⟩, hrd⟩ := h
      have hrd := hrd rest hr
      obtain ⟨n1, n2, n3, n4, h5, h6, h7, h8, h9, h10⟩ := numStart_ne hs
      simp only [stringify, e, List.cons_append] at hrd ⊢
      simp [parseValue, skipWs, h5, h6, h7, h8, startsWith, sNull, sTrue, sFalse, cur, n4, hs, hrd, Ne.symm n1, Ne.symm n2, Ne.symm n3]
  | .str t, h, rest, f, hr, hf => by
      obtain ⟨f, rfl⟩ : ∃ g, f = g + 1 := ⟨f - 1, by omega⟩
      refine ⟨.str t, ?_, rfl⟩
      have := parseString_esc rest h
      simp [stringify, parseValue, skipWs, startsWith, sNull, sTrue, sFalse, cur, this]
  | .arr .nil, h, rest, f, hr, hf => by
      obtain ⟨f, rfl⟩ : ∃ g, f = g + 1 := ⟨f - 1, by omega⟩
      refine ⟨.arr .nil, ?_, .nil, rfl, rfl⟩
      simp [stringify, strItems, parseValue, skipWs, startsWith, sNull, sTrue, sFalse, cur,
        numStart, adv]
  | .arr (.cons v xs), h, rest, f, hr, hf => by
      obtain ⟨f, rfl⟩ : ∃ g, f = g + 1 := ⟨f - 1, by omega⟩
      have hg : Good io v ∧ Good.GoodItems io xs := h
      simp only [stringify, strItems, if_true, List.length_append, List.length_cons,
        List.length_nil] at hf
      obtain ⟨ys, hp, he⟩ := arrLoop_str io tb v xs hg.1 hg.2 .nil rest f
        (by simp only [List.length_append, List.length_cons]; omega)
      refine ⟨_, ?_, ys, rfl, he⟩
      obtain ⟨c, t, e, hws, h93⟩ := head_ok io v hg.1
      rw [e] at hp
      simp only [stringify, strItems, if_true, e, List.nil_append, List.cons_append,
        List.append_assoc, Items.app] at hp ⊢
      simp only [parseValue]
      rw [skipWs_cons (by simp [NonWs])]
      simp [startsWith, sNull, sTrue, sFalse, cur, numStart, adv, skipWs_cons hws, h93, hp]
  | .obj .nil, h, rest, f, hr, hf => by
      obtain ⟨f, rfl⟩ : ∃ g, f = g + 1 := ⟨f - 1, by omega⟩
      refine ⟨.obj .nil, ?_, .nil, rfl, ?_, trivial⟩
      · simp [stringify, strEntries, parseValue, skipWs, startsWith, sNull, sTrue, sFalse, cur,
          numStart, adv]
      · intro k hk; simp [Entries.get] at hk
  | .obj (.cons k v es), h, rest, f, hr, hf => by
      obtain ⟨f, rfl⟩ : ∃ g, f = g + 1 := ⟨f - 1, by omega⟩
      have hg : (Entries.cons k v es).keys.Nodup ∧ PlainKey k ∧ Good io v ∧
        Good.GoodEntries io es := h
      simp only [stringify, strEntries, if_true, List.length_append, List.length_cons,
        List.length_nil] at hf
      obtain ⟨fs, hp, hk, he⟩ := objLoop_str io tb k v es hg.2.1 hg.2.2.1 hg.2.2.2 hg.1 .nil rest f
        (by simp only [List.length_append, List.length_cons]; omega)
      refine ⟨_, ?_, fs, rfl, ?_, he⟩
      · simp only [stringify, strEntries, if_true, List.nil_append, List.cons_append,
          List.append_assoc] at hp ⊢
        simp only [parseValue]
        rw [skipWs_cons (by simp [NonWs])]
        simp [startsWith, sNull, sTrue, sFalse, cur, numStart, adv, skipWs, hp]
      · intro q hq
        refine Classical.byContradiction fun hn => ?_
        rw [hk q hn] at hq
        simp [Entries.get] at hq
  termination_by _ _ _ f => f
theorem arrLoop_str (io : NumIO N) (tb : Table N) : ∀ (v : Json N) (xs : Items N), Good io v →
    Good.GoodItems io xs → ∀ (acc : Items N) (rest : List Byte) (f : Nat),
    2 * (stringify io v ++ (strItems io false xs ++ 93 :: rest)).length + 2 ≤ f →
    ∃ ys, arrLoop io tb f acc (stringify io v ++ (strItems io false xs ++ 93 :: rest))
      = .ok (some (.arr (acc.app ys), rest)) ∧ Eqv.EqvItems (.cons v xs) ys
  | v, xs, hv, hxs, acc, rest, f, hf => by
      obtain ⟨f, rfl⟩ : ∃ g, f = g + 1 := ⟨f - 1, by omega⟩
      obtain ⟨c, t, e, hws, _⟩ := head_ok io v hv
      have hfol := strItems_follow io xs rest
      obtain ⟨w, hw, hvw⟩ := parseValue_str io tb v hv _ f hfol (by omega)
      have hsk : skipWs (stringify io v ++ (strItems io false xs ++ 93 :: rest))
          = stringify io v ++ (strItems io false xs ++ 93 :: rest) := by
        rw [e, List.cons_append, skipWs_cons hws]
      cases xs with
      | nil =>
          refine ⟨.cons w .nil, ?_, w, .nil, rfl, hvw, rfl⟩
          simp only [arrLoop, hsk, hw, Run.ok_bind, follow_skipWs hfol]
          simp [strItems, cur, adv, Items.snoc_eq]
      | cons x xs =>
          have hg : Good io x ∧ Good.GoodItems io xs := hxs
          have hlen : 2 * (stringify io x ++ (strItems io false xs ++ 93 :: rest)).length + 2 ≤ f := by
            simp only [strItems, List.length_append, List.length_cons, List.length_nil,
              Bool.false_eq_true, if_false, e] at hf ⊢
            omega
          obtain ⟨ys, hp, he⟩ := arrLoop_str io tb x xs hg.1 hg.2 (acc.snoc w) rest f hlen
          refine ⟨.cons w ys, ?_, w, ys, rfl, hvw, he⟩
          simp only [arrLoop, hsk, hw, Run.ok_bind, follow_skipWs hfol]
          simp only [strItems, Bool.false_eq_true, if_false, List.cons_append, List.nil_append,
            List.append_assoc] at hp ⊢
          simp [cur, adv, hp, Items.snoc_app]
  termination_by _ _ _ _ _ _ f => f
theorem objLoop_str (io : NumIO N) (tb : Table N) : ∀ (k : List Byte) (v : Json N) (es : Entries N),
    PlainKey k → Good io v → Good.GoodEntries io es → (Entries.cons k v es).keys.Nodup →
    ∀ (acc : Entries N) (rest : List Byte) (f : Nat),
    2 * (34 :: (k ++ (34 :: 58 :: (stringify io v ++ (strEntries io false es ++ 125 :: rest))))).length
      + 2 ≤ f →
    ∃ fs, objLoop io tb f acc
        (34 :: (k ++ (34 :: 58 :: (stringify io v ++ (strEntries io false es ++ 125 :: rest)))))
      = .ok (some (.obj fs, rest)) ∧
      (∀ q, q ∉ (Entries.cons k v es).keys → fs.get q = acc.get q) ∧
      Eqv.EqvEntries (.cons k v es) fs
  | k, v, es, hk, hv, hes, hnd, acc, rest, f, hf => by
      obtain ⟨f, rfl⟩ : ∃ g, f = g + 1 := ⟨f - 1, by omega⟩
      obtain ⟨c, t, e, hws, _⟩ := head_ok io v hv
      have hfol := strEntries_follow io es rest
      simp only [List.length_append, List.length_cons] at hf
      obtain ⟨w, hw, hvw⟩ := parseValue_str io tb v hv _ f hfol
        (by simp only [List.length_append, List.length_cons]; omega)
      have hsk : skipWs (stringify io v ++ (strEntries io false es ++ 125 :: rest))
          = stringify io v ++ (strEntries io false es ++ 125 :: rest) := by
        rw [e, List.cons_append, skipWs_cons hws]
      have hks := parseString_key (58 :: (stringify io v ++ (strEntries io false es ++ 125 :: rest))) hk
      cases es with
      | nil =>
          refine ⟨tb.put acc k w, ?_, ?_, ⟨w, ?_, hvw⟩, trivial⟩
          · simp only [objLoop]
            rw [skipWs_cons (by simp [NonWs]), hks, Run.ok_bind]
            simp only
            rw [skipWs_cons (by simp [NonWs])]
            simp only [cur, List.headD_cons, adv, Run.ok_bind, hsk, hw, follow_skipWs hfol]
            simp [strEntries]
          · intro q hq
            simp only [Entries.keys, List.mem_cons, not_or] at hq
            simp [tb.get_put, hq.1]
          · simp [tb.get_put]
      | cons k2 v2 es =>
          have hg : PlainKey k2 ∧ Good io v2 ∧ Good.GoodEntries io es := hes
          have hnd' : (Entries.cons k2 v2 es).keys.Nodup ∧ k ∉ (Entries.cons k2 v2 es).keys := by
            rw [show (Entries.cons k v (.cons k2 v2 es)).keys
              = k :: (Entries.cons k2 v2 es).keys from rfl, List.nodup_cons] at hnd
            exact ⟨hnd.2, hnd.1⟩
          have hlen : 2 * (34 :: (k2 ++ (34 :: 58 :: (stringify io v2
              ++ (strEntries io false es ++ 125 :: rest))))).length + 2 ≤ f := by
            simp only [strEntries, List.length_append, List.length_cons, List.length_nil,
              Bool.false_eq_true, if_false, e] at hf ⊢
            omega
          obtain ⟨fs, hp, hq, he⟩ := objLoop_str io tb k2 v2 es hg.1 hg.2.1 hg.2.2 hnd'.1
            (tb.put acc k w) rest f hlen
          refine ⟨fs, ?_, ?_, ⟨w, ?_, hvw⟩, he⟩
          · simp only [objLoop]
            rw [skipWs_cons (by simp [NonWs]), hks, Run.ok_bind]
            simp only
            rw [skipWs_cons (by simp [NonWs])]
            simp only [cur, List.headD_cons, adv, Run.ok_bind, hsk, hw, follow_skipWs hfol]
            simp only [strEntries, Bool.false_eq_true, if_false, List.cons_append, List.nil_append,
              List.append_assoc] at hp ⊢
            simp [hp]
          · intro q hn
            rw [show (Entries.cons k v (.cons k2 v2 es)).keys
              = k :: (Entries.cons k2 v2 es).keys from rfl] at hn
            simp only [List.mem_cons, not_or] at hn
            have := hq q (by simp only [Entries.keys, List.mem_cons, not_or] at hn ⊢; exact hn.2)
            rw [this, tb.get_put]
            simp [hn.1]
          · rw [hq k hnd'.2, tb.get_put]; simp
  termination_by _ _ _ _ _ _ _ _ _ f => f
end

end Verif.Json
