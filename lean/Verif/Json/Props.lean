import Verif.Json.Lemmas

/-! # Properties of the JSON reader and writer (C17, C49) -/

namespace Verif.Json
open Verif Verif.Str Spec

variable {N : Type}

/-! ## Round trip (C17) -/

/-- C17 (partial): for every value, however nested, whose strings have no backspace or form feed
and at most 4095 bytes, whose keys need no escaping and are pairwise different, and whose numbers
are read back as written, parsing the written text gives an equal value.
Missing from the full claim: strings with `\b` / `\f` (`json_backspace_violated`), keys with
quotes or backslashes (`json_key_quote_violated`), longer strings (`json_long_string_violated`),
numbers that need more than 15 digits (`json_number_digits_violated`). -/
theorem json_round_trip_partial (io : NumIO N) (tb : Table N) (v : Json N) (h : Good io v) :
    ∃ w, parse io tb (stringify io v) = .ok (some w) ∧ Eqv v w := by
  obtain ⟨w, hw, he⟩ := parseValue_str io tb v h [] (2 * (stringify io v).length + 2) (.inl rfl)
    (by simp)
  refine ⟨w, ?_, he⟩
  rw [List.append_nil] at hw
  simp [parse, hw]

/-! ## Termination and memory safety of the reader -/

/-- a reader result: it came back, it stayed inside the text and the buffer if the text is at
most 4096 bytes, and it consumed something -/
def Fine (p : List Byte) {α : Type} (r : Run (Option (α × List Byte))) : Prop :=
  r ≠ .hang ∧ (p.length ≤ 4096 → r ≠ .ub) ∧
    ∀ v q, r = .ok (some (v, q)) → q.length < p.length

theorem strLoop_full (p buf : List Byte) (h : ¬ buf.length < 4096) : strLoop p buf = .ub := by
  rw [strLoop.eq_def]
  cases p with
  | nil => simp [bufPut, h]
  | cons c p => cases p <;> simp [bufPut, h]

theorem strLoop_fine : ∀ (n : Nat) (p buf : List Byte), p.length ≤ n →
    strLoop p buf ≠ .hang ∧ (buf.length + p.length < 4096 → strLoop p buf ≠ .ub) ∧
    ∀ s q, strLoop p buf = .ok (s, q) → q.length ≤ p.length := by
  intro n
  induction n with
  | zero =>
      intro p buf hp
      have : p = [] := List.length_eq_zero_iff.1 (by omega)
      subst this
      rw [strLoop.eq_def]
      by_cases hb : buf.length < 4096
      · simp [bufPut, hb]
      · simp only [bufPut, hb, if_false, Run.ub_bind]
        refine ⟨by simp, fun h => ?_, by simp⟩
        simp only [List.length_nil] at h; omega
  | succ n ih =>
      intro p buf hp
      cases p with
      | nil => exact ih [] buf (by simp)
      | cons c p =>
          simp only [List.length_cons] at hp
          by_cases hb : buf.length < 4096
          · rw [strLoop.eq_def]
            simp only
            by_cases h1 : c = 34
            · simp [h1, bufPut, hb]
            · by_cases h2 : c = 92
              · cases p with
                | nil =>
                    subst h2
                    simp only [h1, if_false, if_true, bufPut_ok hb, Run.ok_bind]
                    obtain ⟨a, b, d⟩ := ih [] (buf ++ [92]) (by simp)
                    refine ⟨a, fun h => b ?_, fun s q e => ?_⟩
                    · simp only [List.length_cons, List.length_nil, List.length_append] at h ⊢
                      omega
                    · have := d s q e; simp only [List.length_cons, List.length_nil] at this ⊢
                      omega
                | cons d p =>
                    simp only [List.length_cons] at hp
                    subst h2
                    simp only [h1, if_false, if_true, bufPut_ok hb, Run.ok_bind]
                    obtain ⟨a, b, e⟩ := ih p (buf ++ [unesc d]) (by omega)
                    refine ⟨a, fun h => b ?_, fun s q hq => ?_⟩
                    · simp only [List.length_cons, List.length_nil, List.length_append] at h ⊢
                      omega
                    · have := e s q hq; simp only [List.length_cons]; omega
              · simp only [h1, h2, if_false, bufPut_ok hb, Run.ok_bind]
                obtain ⟨a, b, e⟩ := ih p (buf ++ [c]) (by omega)
                refine ⟨a, fun h => b ?_, fun s q hq => ?_⟩
                · simp only [List.length_cons, List.length_nil, List.length_append] at h ⊢
                  omega
                · have := e s q hq; simp only [List.length_cons]; omega
          · have h0 := strLoop_full (c :: p) buf hb
            refine ⟨by simp [h0], fun h => ?_, by simp [h0]⟩
            simp only [List.length_cons] at h; omega

theorem parseString_fine (p : List Byte) : Fine p (parseString p) := by
  unfold parseString
  cases p with
  | nil => simp [cur, Fine]
  | cons c p =>
      simp only [cur, List.headD_cons]
      by_cases h : c = 34
      · obtain ⟨a, b, e⟩ := strLoop_fine p.length p [] (Nat.le_refl _)
        simp only [h, ne_eq, not_true_eq_false, if_false, adv, Run.ok_bind]
        cases hs : strLoop p [] with
        | hang => exact absurd hs a
        | ub =>
            refine ⟨by simp, fun hl => absurd hs (b ?_), by simp⟩
            simp only [List.length_cons, List.length_nil] at hl ⊢; omega
        | ok r =>
            obtain ⟨s, q⟩ := r
            simp only [Run.ok_bind, Run.pure_eq]
            refine ⟨by simp, fun _ => by simp, fun v q' he => ?_⟩
            have hq := e s q hs
            simp only [Run.ok.injEq, Option.some.injEq, Prod.mk.injEq] at he
            rw [← he.2]; simp only [List.length_cons]; omega
      · simp [h, Fine]

theorem startsWith_length {p w : List Byte} (h : startsWith p w = true) : w.length ≤ p.length :=
  (List.isPrefixOf_iff_prefix.1 h).length_le

theorem cur_ne {p : List Byte} {c : Byte} (h : cur p = c) (hc : c ≠ 0) :
    ∃ q, p = c :: q := by
  cases p with
  | nil => simp [cur] at h; exact absurd h.symm hc
  | cons d q => simp [cur] at h; exact ⟨q, by rw [h]⟩

mutual
theorem parseValue_fine (io : NumIO N) (tb : Table N) : ∀ (f : Nat) (p : List Byte),
    2 * p.length + 1 ≤ f → Fine p (parseValue io tb f p)
  | 0, p, h => by omega
  | f + 1, p0, hf => by
      simp only [parseValue]
      have hsk := skipWs_length p0
      generalize skipWs p0 = p at hsk ⊢
      split
      · simp [Fine]
      rename_i hne
      split
      · rename_i hs
        have := startsWith_length hs
        refine ⟨by simp, fun _ => by simp, fun v q he => ?_⟩
        simp only [Run.ok.injEq, Option.some.injEq, Prod.mk.injEq] at he
        rw [← he.2, List.length_drop]; simp [sNull] at this; omega
      split
      · rename_i hs
        have := startsWith_length hs
        refine ⟨by simp, fun _ => by simp, fun v q he => ?_⟩
        simp only [Run.ok.injEq, Option.some.injEq, Prod.mk.injEq] at he
        rw [← he.2, List.length_drop]; simp [sTrue] at this; omega
      split
      · rename_i hs
        have := startsWith_length hs
        refine ⟨by simp, fun _ => by simp, fun v q he => ?_⟩
        simp only [Run.ok.injEq, Option.some.injEq, Prod.mk.injEq] at he
        rw [← he.2, List.length_drop]; simp [sFalse] at this; omega
      split
      · obtain ⟨a, b, e⟩ := parseString_fine p
        cases hs : parseString p with
        | hang => exact absurd hs a
        | ub => exact ⟨by simp, fun hl => absurd hs (b (by omega)), by simp⟩
        | ok r =>
            cases r with
            | none => simp [Fine]
            | some r =>
                obtain ⟨s, q⟩ := r
                have := e s q hs
                refine ⟨by simp, fun _ => by simp, fun v q' he => ?_⟩
                simp only [Run.ok_bind, Run.pure_eq, Run.ok.injEq, Option.some.injEq,
                  Prod.mk.injEq] at he
                rw [← he.2]; omega
      split
      · cases hs : io.strtod p with
        | none => simp [Fine]
        | some r =>
            obtain ⟨x, q⟩ := r
            have := io.strtod_end p x q hs
            refine ⟨by simp, fun _ => by simp, fun v q' he => ?_⟩
            simp only [Run.pure_eq, Run.ok.injEq, Option.some.injEq, Prod.mk.injEq] at he
            rw [← he.2]; omega
      split
      · rename_i h91
        obtain ⟨q, rfl⟩ := cur_ne h91 (by decide)
        simp only [adv, Run.ok_bind]
        simp only [List.length_cons] at hsk
        have hsq := skipWs_length q
        generalize skipWs q = q1 at hsq ⊢
        split
        · rename_i h93
          obtain ⟨q2, rfl⟩ := cur_ne h93 (by decide)
          simp only [List.length_cons] at hsq
          refine ⟨by simp, fun _ => by simp, fun v q' he => ?_⟩
          simp only [Run.ok_bind, Run.pure_eq, Run.ok.injEq, Option.some.injEq,
            Prod.mk.injEq] at he
          rw [← he.2]; omega
        · obtain ⟨a, b, e⟩ := arrLoop_fine io tb f .nil q1 (by omega)
          exact ⟨a, fun h => b (by omega), fun v q' he => by have := e v q' he; omega⟩
      split
      · rename_i h123
        obtain ⟨q, rfl⟩ := cur_ne h123 (by decide)
        simp only [adv, Run.ok_bind]
        simp only [List.length_cons] at hsk
        have hsq := skipWs_length q
        generalize skipWs q = q1 at hsq ⊢
        split
        · rename_i h125
          obtain ⟨q2, rfl⟩ := cur_ne h125 (by decide)
          simp only [List.length_cons] at hsq
          refine ⟨by simp, fun _ => by simp, fun v q' he => ?_⟩
          simp only [Run.ok_bind, Run.pure_eq, Run.ok.injEq, Option.some.injEq,
            Prod.mk.injEq] at he
          rw [← he.2]; omega
        · obtain ⟨a, b, e⟩ := objLoop_fine io tb f .nil q1 (by omega)
          exact ⟨a, fun h => b (by omega), fun v q' he => by have := e v q' he; omega⟩
      · simp [Fine]
theorem arrLoop_fine (io : NumIO N) (tb : Table N) : ∀ (f : Nat) (xs : Items N) (p : List Byte),
    2 * p.length + 2 ≤ f → Fine p (arrLoop io tb f xs p)
  | 0, _, p, h => by omega
  | f + 1, xs, p0, hf => by
      simp only [arrLoop]
      have hsk := skipWs_length p0
      generalize skipWs p0 = p at hsk ⊢
      obtain ⟨a, b, e⟩ := parseValue_fine io tb f p (by omega)
      cases hv : parseValue io tb f p with
      | hang => exact absurd hv a
      | ub => exact ⟨by simp, fun hl => absurd hv (b (by omega)), by simp⟩
      | ok r =>
          cases r with
          | none => simp [Fine]
          | some r =>
              obtain ⟨v, q⟩ := r
              have hq := e v q hv
              simp only [Run.ok_bind]
              have hsq := skipWs_length q
              generalize skipWs q = q1 at hsq ⊢
              split
              · rename_i h93
                obtain ⟨q2, rfl⟩ := cur_ne h93 (by decide)
                simp only [List.length_cons] at hsq
                refine ⟨by simp [adv], fun _ => by simp [adv], fun v q' he => ?_⟩
                simp only [adv, Run.ok_bind, Run.pure_eq, Run.ok.injEq, Option.some.injEq,
                  Prod.mk.injEq] at he
                rw [← he.2]; omega
              split
              · simp [Fine]
              · rename_i h44
                obtain ⟨q2, rfl⟩ := cur_ne (Classical.not_not.1 h44) (by decide)
                simp only [List.length_cons] at hsq
                simp only [adv, Run.ok_bind]
                obtain ⟨a, b, e⟩ := arrLoop_fine io tb f (xs.snoc v) q2 (by omega)
                exact ⟨a, fun h => b (by omega), fun v q' he => by have := e v q' he; omega⟩
theorem objLoop_fine (io : NumIO N) (tb : Table N) : ∀ (f : Nat) (es : Entries N) (p : List Byte),
    2 * p.length + 2 ≤ f → Fine p (objLoop io tb f es p)
  | 0, _, p, h => by omega
  | f + 1, es, p0, hf => by
      simp only [objLoop]
      have hsk := skipWs_length p0
      generalize skipWs p0 = p at hsk ⊢
      obtain ⟨a, b, e⟩ := parseString_fine p
      cases hv : parseString p with
      | hang => exact absurd hv a
      | ub => exact ⟨by simp, fun hl => absurd hv (b (by omega)), by simp⟩
      | ok r =>
          cases r with
          | none => simp [Fine]
          | some r =>
              obtain ⟨k, q⟩ := r
              have hq := e k q hv
              simp only [Run.ok_bind]
              have hsq := skipWs_length q
              generalize skipWs q = q1 at hsq ⊢
              split
              · simp [Fine]
              rename_i h58
              obtain ⟨q2, rfl⟩ := cur_ne (Classical.not_not.1 h58) (by decide)
              simp only [List.length_cons] at hsq
              simp only [adv, Run.ok_bind]
              have hs2 := skipWs_length q2
              generalize skipWs q2 = q3 at hs2 ⊢
              obtain ⟨a, b, e⟩ := parseValue_fine io tb f q3 (by omega)
              cases hv : parseValue io tb f q3 with
              | hang => exact absurd hv a
              | ub => exact ⟨by simp, fun hl => absurd hv (b (by omega)), by simp⟩
              | ok r =>
                  cases r with
                  | none => simp [Fine]
                  | some r =>
                      obtain ⟨v, q4⟩ := r
                      have hq4 := e v q4 hv
                      simp only [Run.ok_bind]
                      have hsq := skipWs_length q4
                      generalize skipWs q4 = q5 at hsq ⊢
                      split
                      · rename_i h125
                        obtain ⟨q6, rfl⟩ := cur_ne h125 (by decide)
                        simp only [List.length_cons] at hsq
                        refine ⟨by simp, fun _ => by simp, fun v q' he => ?_⟩
                        simp only [Run.ok_bind, Run.pure_eq, Run.ok.injEq, Option.some.injEq,
                          Prod.mk.injEq] at he
                        rw [← he.2]; omega
                      split
                      · simp [Fine]
                      · rename_i h44
                        obtain ⟨q6, rfl⟩ := cur_ne (Classical.not_not.1 h44) (by decide)
                        simp only [List.length_cons] at hsq
                        simp only [Run.ok_bind]
                        obtain ⟨a, b, e⟩ := objLoop_fine io tb f (tb.put es k v) q6 (by omega)
                        exact ⟨a, fun h => b (by omega), fun v q' he => by have := e v q' he; omega⟩
end

/-- C49: reading comes to an end on every text -/
theorem json_parse_terminates (io : NumIO N) (tb : Table N) (text : List Byte) :
    parse io tb text ≠ .hang := by
  have h := parseValue_fine io tb (2 * text.length + 2) text (by omega)
  unfold parse
  cases hv : parseValue io tb (2 * text.length + 2) text with
  | hang => exact absurd hv h.1
  | ub => simp
  | ok r => simp

/-- C49 (partial): on every text of at most 4096 bytes, well formed or not, reading stays inside
the text and its string buffer.  Missing: longer texts, see `json_long_string_violated`. -/
theorem json_parse_safe_partial (io : NumIO N) (tb : Table N) (text : List Byte)
    (hl : text.length ≤ 4096) : ∃ r, parse io tb text = .ok r := by
  have h := parseValue_fine io tb (2 * text.length + 2) text (by omega)
  unfold parse
  cases hv : parseValue io tb (2 * text.length + 2) text with
  | hang => exact absurd hv h.1
  | ub => exact absurd hv (h.2.1 hl)
  | ok r => simp

theorem strLoop_over : ∀ (t buf rest : List Byte), buf.length ≤ 4096 →
    4096 ≤ buf.length + t.length → strLoop (escText t ++ 34 :: rest) buf = .ub
  | [], buf, rest, _, hl => by
      have : ¬ buf.length < 4096 := by simp only [List.length_nil] at hl; omega
      rw [escText, List.nil_append, strLoop.eq_def]
      simp [bufPut, this]
  | c :: t, buf, rest, hb, hl => by
      simp only [List.length_cons] at hl
      by_cases hlt : buf.length < 4096
      · have ih := fun b => strLoop_over t (buf ++ [b]) rest
          (by simp only [List.length_append, List.length_cons, List.length_nil]; omega)
          (by simp only [List.length_append, List.length_cons, List.length_nil]; omega)
        simp only [escText, escByte]
        by_cases e1 : c = 34
        · subst e1; simp [strLoop, bufPut_ok hlt, ih]
        by_cases e2 : c = 92
        · subst e2; simp [strLoop, bufPut_ok hlt, ih]
        by_cases e3 : c = 10
        · subst e3; simp [strLoop, bufPut_ok hlt, ih]
        by_cases e4 : c = 9
        · subst e4; simp [strLoop, bufPut_ok hlt, ih]
        by_cases e5 : c = 13
        · subst e5; simp [strLoop, bufPut_ok hlt, ih]
        by_cases e6 : c = 8
        · subst e6; simp [strLoop, bufPut_ok hlt, ih]
        by_cases e7 : c = 12
        · subst e7; simp [strLoop, bufPut_ok hlt, ih]
        simp only [e1, e2, e3, e4, e5, e6, e7, if_false, List.cons_append, List.nil_append]
        rw [strLoop.eq_def]
        simp [e1, e2, bufPut_ok hlt, ih]
      · exact strLoop_full _ _ hlt

/-- C17/C49 refuted: every string value of 4096 bytes or more is written to a text that the
reader overflows its buffer on -/
theorem json_long_string_violated (io : NumIO N) (tb : Table N) (t : List Byte)
    (h : 4096 ≤ t.length) : parse io tb (stringify io (.str t)) = .ub := by
  have := strLoop_over t [] [] (by simp) (by simpa using h)
  simp [parse, stringify, parseValue, skipWs, startsWith, sNull, sTrue, sFalse, cur, parseString,
    adv, this]

/-! ## A concrete number format: integer-valued doubles -/

/-- decimal digits -/
def digits : Nat → Nat → List Byte
  | 0, _ => []
  | f + 1, n => if n < 10 then [UInt8.ofNat (48 + n)]
      else digits f (n / 10) ++ [UInt8.ofNat (48 + n % 10)]

/-- decimal notation of a natural number -/
def dec (n : Nat) : List Byte := digits (n + 1) n

/-- number of decimal digits -/
def ndig (n : Nat) : Nat := (dec n).length

/-- division rounding to nearest, ties to even: how `printf` rounds an exact value -/
def rdiv (n d : Nat) : Nat :=
  let q := n / d
  let r := n % d
  if 2 * r > d ∨ (2 * r = d ∧ q % 2 = 1) then q + 1 else q

/-- drop trailing zeros -/
def dropZeros (l : List Byte) : List Byte := (l.reverse.dropWhile (· = 48)).reverse

/-- `"%.15g"` of a non-negative integer-valued double: plain digits below 10^15, otherwise
15 significant digits in scientific notation (two-digit exponents only) -/
def fmtNat (n : Nat) : List Byte :=
  if n < 10 ^ 15 then dec n
  else
    let e := ndig n - 1
    let m0 := rdiv n (10 ^ (e - 14))
    let me := if m0 = 10 ^ 15 then (10 ^ 14, e + 1) else (m0, e)
    let ds := dec me.1
    let frac := dropZeros ds.tail
    ds.take 1 ++ (if frac = [] then [] else 46 :: frac) ++ [101, 43]
      ++ [UInt8.ofNat (48 + me.2 / 10 % 10), UInt8.ofNat (48 + me.2 % 10)]

/-- with sign -/
def fmtInt (n : Int) : List Byte := if n < 0 then 45 :: fmtNat n.natAbs else fmtNat n.natAbs

/-- is a digit -/
def isDig (c : Byte) : Bool := 48 ≤ c && c ≤ 57

/-- read a run of digits: value, how many, rest -/
def readDigits : List Byte → Nat → Nat → Nat × Nat × List Byte
  | [], v, k => (v, k, [])
  | c :: p, v, k => if isDig c then readDigits p (10 * v + (c.toNat - 48)) (k + 1) else (v, k, c :: p)

/-- optional `e+dd` -/
def readExp (p : List Byte) : Nat × List Byte :=
  match p with
  | 101 :: 43 :: c :: q =>
      if isDig c then let r := readDigits (c :: q) 0 0; (r.1, r.2.2) else (0, p)
  | _ => (0, p)

/-- optional `.ddd` -/
def readFrac (p : List Byte) (v : Nat) : Nat × Nat × List Byte :=
  match p with
  | 46 :: q => readDigits q v 0
  | _ => (v, 0, p)

/-- `strtod` on the forms `ddd[.ddd][e+dd]`, dropping a fractional part of the value -/
def strtodNat (p : List Byte) : Option (Nat × List Byte) :=
  let r := readDigits p 0 0
  if r.2.1 = 0 then none
  else
    let s := readFrac r.2.2 r.1
    let t := readExp s.2.2
    some (s.1 * 10 ^ t.1 / 10 ^ s.2.1, t.2)

/-- with sign -/
def strtodInt (p : List Byte) : Option (Int × List Byte) :=
  match p with
  | 45 :: q => (strtodNat q).map fun r => (-(r.1 : Int), r.2)
  | _ => (strtodNat p).map fun r => ((r.1 : Int), r.2)

theorem readDigits_len : ∀ (p : List Byte) (v k : Nat),
    (readDigits p v k).2.2.length + (readDigits p v k).2.1 = p.length + k
  | [], v, k => by simp [readDigits]
  | c :: p, v, k => by
      simp only [readDigits]
      split
      · have := readDigits_len p (10 * v + (c.toNat - 48)) (k + 1)
        simp only [List.length_cons]; omega
      · rfl

theorem readFrac_len (p : List Byte) (v : Nat) : (readFrac p v).2.2.length ≤ p.length := by
  unfold readFrac
  split
  · rename_i q
    have := readDigits_len q v 0
    simp only [List.length_cons]; omega
  · simp

theorem readExp_len (p : List Byte) : (readExp p).2.length ≤ p.length := by
  unfold readExp
  split
  · rename_i c q
    split
    · have := readDigits_len (c :: q) 0 0
      simp only [List.length_cons] at this ⊢; omega
    · simp
  · simp

theorem strtodNat_len (p : List Byte) (x : Nat) (r : List Byte) (h : strtodNat p = some (x, r)) :
    r.length < p.length := by
  unfold strtodNat at h
  simp only at h
  split at h
  · simp at h
  rename_i hk
  simp only [Option.some.injEq, Prod.mk.injEq] at h
  have h1 := readDigits_len p 0 0
  have h2 := readFrac_len (readDigits p 0 0).2.2 (readDigits p 0 0).1
  have h3 := readExp_len (readFrac (readDigits p 0 0).2.2 (readDigits p 0 0).1).2.2
  rw [← h.2]; omega

/-- the number conversions restricted to integer-valued doubles -/
def intIO : NumIO Int where
  fmt := fmtInt
  strtod := strtodInt
  strtod_end := by
    intro p x r h
    unfold strtodInt at h
    split at h
    · rename_i q
      cases hq : strtodNat q with
      | none => simp [hq] at h
      | some y =>
          obtain ⟨a, b⟩ := y
          simp only [hq, Option.map_some, Option.some.injEq, Prod.mk.injEq] at h
          have := strtodNat_len q a b hq
          rw [← h.2]; simp only [List.length_cons]; omega
    · cases hq : strtodNat p with
      | none => simp [hq] at h
      | some y =>
          obtain ⟨a, b⟩ := y
          simp only [hq, Option.map_some, Option.some.injEq, Prod.mk.injEq] at h
          have := strtodNat_len p a b hq
          rw [← h.2]; omega

theorem digit_byte (d : Nat) (h : d < 10) : isDig (UInt8.ofNat (48 + d)) = true ∧
    (UInt8.ofNat (48 + d)).toNat - 48 = d := by
  have : ∀ d : Fin 10, isDig (UInt8.ofNat (48 + d.val)) = true ∧
    (UInt8.ofNat (48 + d.val)).toNat - 48 = d.val := by decide
  exact this ⟨d, h⟩

/-- where a run of digits ends -/
def Stop (p : List Byte) : Prop := p = [] ∨ ∃ c q, p = c :: q ∧ isDig c = false

theorem readDigits_stop {p : List Byte} (h : Stop p) (v k : Nat) : readDigits p v k = (v, k, p) := by
  rcases h with rfl | ⟨c, q, rfl, hc⟩
  · rfl
  · simp [readDigits, hc]

theorem readDigits_digits : ∀ (f n : Nat), n < f → ∃ k, 0 < k ∧
    ∀ (rest : List Byte) (v j : Nat), readDigits (digits f n ++ rest) v j
      = readDigits rest (v * 10 ^ k + n) (j + k)
  | 0, n, h => by omega
  | f + 1, n, h => by
      simp only [digits]
      split
      · rename_i hlt
        refine ⟨1, by omega, fun rest v j => ?_⟩
        obtain ⟨a, b⟩ := digit_byte n hlt
        simp only [List.cons_append, List.nil_append, readDigits, a, b, if_true]
        congr 1; omega
      · rename_i hge
        obtain ⟨k, hk, ih⟩ := readDigits_digits f (n / 10) (by omega)
        refine ⟨k + 1, by omega, fun rest v j => ?_⟩
        obtain ⟨a, b⟩ := digit_byte (n % 10) (by omega)
        rw [List.append_assoc, ih]
        simp only [List.cons_append, List.nil_append, readDigits, a, b, if_true]
        congr 1
        rw [Nat.pow_succ, Nat.mul_add, ← Nat.mul_assoc v]
        omega

theorem dec_head (n : Nat) : ∃ c t, dec n = c :: t ∧ isDig c = true := by
  unfold dec
  have : ∀ f n, n < f → ∃ c t, digits f n = c :: t ∧ isDig c = true := by
    intro f
    induction f with
    | zero => intro n h; omega
    | succ f ih =>
        intro n h
        simp only [digits]
        split
        · rename_i hlt; exact ⟨_, [], rfl, (digit_byte n hlt).1⟩
        · obtain ⟨c, t, e, hc⟩ := ih (n / 10) (by omega)
          exact ⟨c, t ++ [UInt8.ofNat (48 + n % 10)], by rw [e]; rfl, hc⟩
  exact this _ _ (by omega)

theorem follow_stop {rest : List Byte} (h : Follow rest) : Stop rest := by
  rcases h with rfl | ⟨c, r, rfl, h⟩
  · exact .inl rfl
  · exact .inr ⟨c, r, rfl, by rcases h with rfl | rfl | rfl <;> decide⟩

theorem strtodNat_dec (n : Nat) (rest : List Byte) (h : Follow rest) :
    strtodNat (dec n ++ rest) = some (n, rest) := by
  obtain ⟨k, hk, e⟩ := readDigits_digits (n + 1) n (by omega)
  have e := e rest 0 0
  rw [readDigits_stop (follow_stop h)] at e
  unfold strtodNat dec
  rw [e]
  have hf : readFrac rest (0 * 10 ^ k + n) = (0 * 10 ^ k + n, 0, rest) := by
    rcases h with rfl | ⟨c, r, rfl, h⟩
    · rfl
    · rcases h with rfl | rfl | rfl <;> rfl
  have he : readExp rest = (0, rest) := by
    rcases h with rfl | ⟨c, r, rfl, h⟩
    · rfl
    · rcases h with rfl | rfl | rfl <;> rfl
  simp only [hf, he]
  simp
  omega

/-- every integer of at most 15 digits is read back as written -/
theorem int_readable (n : Int) (h : n.natAbs < 10 ^ 15) : Readable intIO n := by
  obtain ⟨c, t, e, hc⟩ := dec_head n.natAbs
  constructor
  · by_cases hn : n < 0
    · exact ⟨45, _, by simp [intIO, fmtInt, hn]; rfl, by decide⟩
    · refine ⟨c, t, by simp only [intIO, fmtInt, hn, if_false, fmtNat, h, if_true, e], ?_⟩
      unfold isDig at hc; unfold numStart; rw [hc]; simp
  · intro rest hr
    by_cases hn : n < 0
    · simp only [intIO, fmtInt, hn, if_true, fmtNat, h, List.cons_append, strtodInt,
        strtodNat_dec _ _ hr, Option.map_some, Option.some.injEq, Prod.mk.injEq, and_true]
      omega
    · have hs : strtodInt (dec n.natAbs ++ rest) = some (n, rest) := by
        have h1 := strtodNat_dec n.natAbs rest hr
        rw [e] at h1 ⊢
        unfold strtodInt
        have hne : c ≠ 45 := by rintro rfl; exact absurd hc (by decide)
        split
        · rename_i q hq
          simp only [List.cons_append, List.cons.injEq] at hq
          exact absurd hq.1 hne
        · rw [h1]
          simp only [Option.map_some, Option.some.injEq, Prod.mk.injEq, and_true]
          omega
      simp only [intIO, fmtInt, hn, if_false, fmtNat, h, if_true, hs]

/-- a table that keeps insertion order -/
def putLast : Entries Int → List Byte → Json Int → Entries Int
  | .nil, k, v => .cons k v .nil
  | .cons q w es, k, v => if q = k then .cons k v es else .cons q w (putLast es k v)

theorem putLast_get : ∀ (es : Entries Int) (k : List Byte) (v : Json Int) (q : List Byte),
    (putLast es k v).get q = if q = k then some v else es.get q
  | .nil, k, v, q => by
      simp only [putLast, Entries.get]
      by_cases h : k = q
      · subst h; simp
      · simp [h, Ne.symm h]
  | .cons a w es, k, v, q => by
      simp only [putLast]
      split
      · rename_i h
        subst h
        simp only [Entries.get]
        by_cases hq : a = q
        · subst hq; simp
        · simp [hq, Ne.symm hq]
      · rename_i h
        simp only [Entries.get, putLast_get es k v q]
        by_cases hq : a = q
        · subst hq; simp [h]
        · simp [hq]

/-- the example table -/
def lastTable : Table Int := ⟨putLast, putLast_get⟩

/-- `{"a\"" : [1, -20, "x\n"], "" : {}}` with the quote in a string, not in a key -/
def sample : Json Int :=
  .obj (.cons [97] (.arr (.cons (.num 1) (.cons (.num (-20)) (.cons (.str [120, 10, 34]) .nil))))
    (.cons [] (.obj .nil) .nil))

/-- the sample meets the hypotheses of `json_round_trip_partial` -/
example : Good intIO sample := by
  refine ⟨by decide, ⟨by decide, by decide, by decide, by decide⟩, ⟨?_, ?_, ?_, trivial⟩,
    ⟨by decide, by decide, by decide, by decide⟩, ⟨by decide, trivial⟩, trivial⟩
  · exact int_readable 1 (by decide)
  · exact int_readable (-20) (by decide)
  · exact ⟨by decide, by decide, by decide, by decide⟩

/-- the hypothesis of `json_long_string_violated` is met, e.g. by 5000 times `a` -/
example : 4096 ≤ (List.replicate 5000 (97 : Byte)).length := by
  rw [List.length_replicate]; decide

/-- C17 refuted: a string containing a backspace comes back with the letter b -/
theorem json_backspace_violated :
    parse intIO lastTable (stringify intIO (.str [8])) = .ok (some (.str [98])) := by
  rfl

/-- C17 refuted: an object with a quote in a key cannot be read back -/
theorem json_key_quote_violated :
    parse intIO lastTable (stringify intIO (.obj (.cons [34] .null .nil))) = .ok none := by
  rfl

/-- C17 refuted: 2^53 is written as 9.00719925474099e+15 and comes back as another number -/
theorem json_number_digits_violated :
    (parse intIO lastTable (stringify intIO (.num 9007199254740992)))
      = .ok (some (.num 9007199254740990)) := by
  have h : fmtInt 9007199254740992 = [57, 46, 48, 48, 55, 49, 57, 57, 50, 53, 52, 55, 52, 48, 57, 57, 101, 43, 49, 53] := by
    decide +kernel
  have : stringify intIO (.num 9007199254740992) = fmtInt 9007199254740992 := by
    simp [stringify, intIO]
  rw [this, h]
  rfl

/-- C49 refuted: whatever follows a value and a comma is ignored -/
theorem json_trailing_violated (io : NumIO N) (tb : Table N) (v : Json N) (h : Good io v)
    (garbage : List Byte) :
    ∃ w, parse io tb (stringify io v ++ 44 :: garbage) = .ok (some w) ∧ Eqv v w := by
  obtain ⟨w, hw, he⟩ := parseValue_str io tb v h (44 :: garbage)
    (2 * (stringify io v ++ 44 :: garbage).length + 2) (.inr ⟨44, garbage, rfl, .inl rfl⟩) (by omega)
  exact ⟨w, by simp only [parse, hw, Run.ok_bind, Run.pure_eq, Option.map_some], he⟩

/-- C49 refuted: a string without closing quote is accepted -/
theorem json_unterminated_violated :
    parse intIO lastTable [34, 97, 98] = .ok (some (.str [97, 98])) := by
  rfl

end Verif.Json
