import Verif.CJson.Model

/-!
# Strings of the JSON library: what the two passes read and what is printed
-/

namespace Verif.CJson

open Spec (Hex Cut)

theorem and_bf (c : Nat) : (c ||| 0x80) &&& 0xBF = 128 + c % 64 := by
  have h1 : (c ||| 0x80) &&& 0xBF = ((c ||| 0x80) % 256) &&& 0xBF := by
    have : (c ||| 0x80) % 256 = (c ||| 0x80) &&& 255 :=
      (Nat.and_two_pow_sub_one_eq_mod (c ||| 0x80) 8).symm
    rw [this, Nat.and_assoc]
    rfl
  have h2 : (c ||| 0x80) % 256 = (c % 256) ||| 0x80 := Nat.or_mod_two_pow (n := 8)
  have h3 : ∀ x, x < 256 → (x ||| 0x80) &&& 0xBF = 128 + x % 64 := by decide +kernel
  rw [h1, h2, h3 _ (Nat.mod_lt _ (by omega))]
  omega

theorem encode_utf8 (c : Nat) (h : c < 0x110000) : encode c = Spec.utf8 c := by
  unfold encode Spec.utf8
  have h0 : ∀ x, x < 128 → x &&& 0x7F = x := by decide +kernel
  have h1 : ∀ x, x < 32 → (x ||| 0xC0) &&& 0xFF = 192 + x := by decide +kernel
  have h2 : ∀ x, x < 16 → (x ||| 0xE0) &&& 0xFF = 224 + x := by decide +kernel
  have h3 : ∀ x, x < 5 → (x ||| 0xF0) &&& 0xFF = 240 + x := by decide +kernel
  simp only [and_bf, Nat.shiftRight_eq_div_pow]
  split
  · rw [h0 c (by omega)]
  · split
    · rw [h1 _ (by omega)]
    · split
      · rw [h2 _ (by omega)]
      · rw [h3 _ (by omega)]

theorem pair_eq (hi lo : Nat) (hh : hi < 1024) (hl : lo < 1024) :
    pair (0xD800 + hi) (0xDC00 + lo) = 0x10000 + 1024 * hi + lo := by
  unfold pair
  have e1 : (0xD800 + hi) &&& 0x3FF = hi := by
    have : (0xD800 + hi) &&& 0x3FF = (0xD800 + hi) % 1024 := Nat.and_two_pow_sub_one_eq_mod _ 10
    omega
  have e2 : (0xDC00 + lo) &&& 0x3FF = lo := by
    have : (0xDC00 + lo) &&& 0x3FF = (0xDC00 + lo) % 1024 := Nat.and_two_pow_sub_one_eq_mod _ 10
    omega
  rw [e1, e2]
  have : hi <<< 10 + lo = hi <<< 10 ||| lo := Nat.shiftLeft_add_eq_or_of_lt (by omega) hi
  rw [← this, Nat.shiftLeft_eq]
  omega

theorem hexVal_iff (c n : Nat) : hexVal c = some n ↔ Hex c n := by
  constructor
  · intro h
    unfold hexVal at h
    split at h
    · next hc =>
      have : c = 48 + (c - 48) := by omega
      cases h
      rw [this]
      exact (by simpa using Hex.digit (c - 48) (by omega))
    · split at h
      · next hc =>
        have e : c = 65 + (c - 65) := by omega
        have e2 : n = 10 + (c - 65) := by simp at h; omega
        rw [e, e2]
        have := Hex.upper (c - 65) (by omega)
        simpa using this
      · split at h
        · next hc =>
          have e : c = 97 + (c - 97) := by omega
          have e2 : n = 10 + (c - 97) := by simp at h; omega
          rw [e, e2]
          have := Hex.lower (c - 97) (by omega)
          simpa using this
        · cases h
  · intro h
    cases h with
    | digit n h => unfold hexVal; rw [if_pos (by omega)]; simp
    | upper m h =>
      unfold hexVal
      rw [if_neg (by omega), if_pos (by omega)]
      simp; omega
    | lower m h =>
      unfold hexVal
      rw [if_neg (by omega), if_neg (by omega), if_pos (by omega)]
      simp; omega

theorem hexVal_lt {c n : Nat} (h : hexVal c = some n) : n < 16 := by
  have := (hexVal_iff c n).1 h
  cases this <;> omega

theorem hex4_unit {a b c d u : Nat} (h : Spec.Unit [a, b, c, d] u) : hex4 a b c d = u := by
  obtain ⟨a', b', c', d', w, x, y, z, he, hw, hx, hy, hz, hu⟩ := h
  injection he with e1 he; injection he with e2 he; injection he with e3 he
  injection he with e4 _
  subst e1; subst e2; subst e3; subst e4
  unfold hex4
  rw [(hexVal_iff _ _).2 hw, (hexVal_iff _ _).2 hx, (hexVal_iff _ _).2 hy, (hexVal_iff _ _).2 hz]
  simp only [Nat.shiftLeft_eq]
  omega

/-- Either the four bytes are digits, and the number is theirs, or the number is zero. -/
theorem hex4_cases (a b c d : Nat) :
    Spec.Unit [a, b, c, d] (hex4 a b c d) ∨
      (hex4 a b c d = 0 ∧ ∀ u, ¬ Spec.Unit [a, b, c, d] u) := by
  cases ha : hexVal a with
  | none =>
    refine .inr ⟨by simp [hex4, ha], ?_⟩
    rintro u ⟨a', b', c', d', w, x, y, z, he, hw, -⟩
    injection he with e1 he
    subst e1
    rw [(hexVal_iff _ _).2 hw] at ha; cases ha
  | some w =>
  cases hb : hexVal b with
  | none =>
    refine .inr ⟨by simp [hex4, hb], ?_⟩
    rintro u ⟨a', b', c', d', w, x, y, z, he, hw, hx, -⟩
    injection he with e1 he; injection he with e2 he
    subst e2
    rw [(hexVal_iff _ _).2 hx] at hb; cases hb
  | some x =>
  cases hc : hexVal c with
  | none =>
    refine .inr ⟨by simp [hex4, hc], ?_⟩
    rintro u ⟨a', b', c', d', w, x, y, z, he, hw, hx, hy, -⟩
    injection he with e1 he; injection he with e2 he; injection he with e3 he
    subst e3
    rw [(hexVal_iff _ _).2 hy] at hc; cases hc
  | some y =>
  cases hd : hexVal d with
  | none =>
    refine .inr ⟨by simp [hex4, hd], ?_⟩
    rintro u ⟨a', b', c', d', w, x, y, z, he, hw, hx, hy, hz, -⟩
    injection he with e1 he; injection he with e2 he; injection he with e3 he
    injection he with e4 _
    subst e4
    rw [(hexVal_iff _ _).2 hz] at hd; cases hd
  | some z =>
    left
    refine ⟨a, b, c, d, w, x, y, z, rfl, (hexVal_iff _ _).1 ha, (hexVal_iff _ _).1 hb,
      (hexVal_iff _ _).1 hc, (hexVal_iff _ _).1 hd, ?_⟩
    simp only [hex4, ha, hb, hc, hd, Nat.shiftLeft_eq]
    omega

theorem unit_lt {ds : List Nat} {u : Nat} (h : Spec.Unit ds u) : u < 0x10000 := by
  obtain ⟨a, b, c, d, w, x, y, z, he, hw, hx, hy, hz, hu⟩ := h
  have := hexVal_lt ((hexVal_iff _ _).2 hw)
  have := hexVal_lt ((hexVal_iff _ _).2 hx)
  have := hexVal_lt ((hexVal_iff _ _).2 hy)
  have := hexVal_lt ((hexVal_iff _ _).2 hz)
  omega

theorem hex4_lt (a b c d : Nat) : hex4 a b c d < 0x10000 := by
  rcases hex4_cases a b c d with h | h
  · exact unit_lt h
  · omega

theorem unit_shape {ds : List Nat} {u : Nat} (h : Spec.Unit ds u) :
    ∃ a b c d, ds = [a, b, c, d] := by
  obtain ⟨a, b, c, d, w, x, y, z, he, -⟩ := h
  exact ⟨a, b, c, d, he⟩

theorem simple_iff (e x : Nat) : simple e = some x ↔ (e, x) ∈ Spec.letters := by
  constructor
  · intro h
    unfold simple at h
    split at h
    · next he => cases h; subst he; simp [Spec.letters]
    split at h
    · next he => cases h; subst he; simp [Spec.letters]
    split at h
    · next he => cases h; subst he; simp [Spec.letters]
    split at h
    · next he => cases h; subst he; simp [Spec.letters]
    split at h
    · next he => cases h; subst he; simp [Spec.letters]
    split at h
    · next he =>
      cases h
      rcases he with he | he | he <;> subst he <;> simp [Spec.letters]
    · cases h
  · intro h
    simp only [Spec.letters, List.mem_cons, Prod.mk.injEq, List.not_mem_nil, or_false] at h
    rcases h with ⟨h1, h2⟩ | ⟨h1, h2⟩ | ⟨h1, h2⟩ | ⟨h1, h2⟩ | ⟨h1, h2⟩ | ⟨h1, h2⟩ | ⟨h1, h2⟩ |
      ⟨h1, h2⟩ <;> subst h1 <;> subst h2 <;> rfl

theorem letter_ne {e x : Nat} (h : (e, x) ∈ Spec.letters) : e ≠ 117 ∧ x ≠ 0 := by
  simp only [Spec.letters, List.mem_cons, Prod.mk.injEq, List.not_mem_nil, or_false] at h
  omega

theorem decode_raw (c : Nat) (r : List Nat) (h : c ≠ 92) :
    decode (c :: r) = (decode r).map (c :: ·) := by
  rw [decode.eq_def]
  simp only [ne_eq, h, not_false_eq_true, if_true]

theorem decode_letter (e : Nat) (r : List Nat) (h : e ≠ 117) :
    decode (92 :: e :: r) =
      match simple e with
      | some x => (decode r).map (x :: ·)
      | none => none := by
  rw [decode.eq_def]
  simp only [ne_eq, h, not_true_eq_false, if_false]
  cases simple e <;> rfl

theorem decode_u (a b c d : Nat) (r : List Nat) :
    decode (92 :: 117 :: a :: b :: c :: d :: r) =
      if 0xDC00 ≤ hex4 a b c d ∧ hex4 a b c d ≤ 0xDFFF then none
      else if 0xD800 ≤ hex4 a b c d ∧ hex4 a b c d ≤ 0xDBFF then
        match r with
        | x :: y :: a' :: b' :: c' :: d' :: r3 =>
          if x ≠ 92 ∨ y ≠ 117 then none
          else if hex4 a' b' c' d' < 0xDC00 ∨ 0xDFFF < hex4 a' b' c' d' then none
          else (decode r3).map (encode (pair (hex4 a b c d) (hex4 a' b' c' d')) ++ ·)
        | _ => none
      else (decode r).map (encode (hex4 a b c d) ++ ·) := by
  rw [decode.eq_def]
  simp only [ne_eq, not_true_eq_false, if_false, if_true]
  rfl

/-- Too few bytes after `\u`. -/
theorem decode_u_short (r : List Nat) (h : r.length < 4) : decode (92 :: 117 :: r) = none := by
  rw [decode.eq_def]
  simp only [ne_eq, not_true_eq_false, if_false, if_true]
  split
  · simp only [List.length_cons] at h; omega
  · rfl

/-- Every text of a string is read as what it stands for. -/
theorem decode_complete {t s : List Nat} (h : Spec.Str t s) : decode t = some s := by
  induction h with
  | nil => rfl
  | raw c hq hb _ ih => rw [decode_raw c _ hb, ih]; rfl
  | letter e x he _ ih =>
    rw [decode_letter e _ (letter_ne he).1, (simple_iff e x).2 he]
    simp [ih]
  | code ds u hu hs _ ih =>
    obtain ⟨a, b, c, d, rfl⟩ := unit_shape hu
    have e := hex4_unit hu
    have hlt := unit_lt hu
    simp only [List.cons_append, List.nil_append]
    rw [decode_u, e, if_neg (by omega), if_neg (by omega), ih, encode_utf8 u (by omega)]
    rfl
  | pair ds es hi lo hu hv hh hl _ ih =>
    obtain ⟨a, b, c, d, rfl⟩ := unit_shape hu
    obtain ⟨a', b', c', d', rfl⟩ := unit_shape hv
    have e := hex4_unit hu
    have e' := hex4_unit hv
    simp only [List.cons_append, List.nil_append]
    rw [decode_u, e, if_neg (by omega), if_pos (by omega)]
    simp only [e', ne_eq, not_true_eq_false, or_self, if_false]
    rw [if_neg (by omega), ih, pair_eq hi lo hh hl, encode_utf8 _ (by omega)]
    rfl

theorem hex_ne {a w : Nat} (h : Hex a w) : a ≠ 34 ∧ a ≠ 92 := by
  cases h <;> omega

theorem scan_raw (c : Nat) (r : List Nat) (hq : c ≠ 34) (hb : c ≠ 92) :
    scan (c :: r) = (scan r).map fun p => (c :: p.1, p.2) := by
  rw [scan.eq_def]; simp [hq, hb]

theorem scan_esc (d : Nat) (r : List Nat) :
    scan (92 :: d :: r) = (scan r).map fun p => (92 :: d :: p.1, p.2) := by
  rw [scan.eq_def]; simp

theorem scan_quote (r : List Nat) : scan (34 :: r) = some ([], r) := by
  rw [scan.eq_def]; simp

theorem scan_unit {ds : List Nat} {u : Nat} (h : Spec.Unit ds u) (r : List Nat) :
    scan (92 :: 117 :: (ds ++ r)) =
      (scan r).map fun p => (92 :: 117 :: (ds ++ p.1), p.2) := by
  obtain ⟨a, b, c, d, w, x, y, z, rfl, hw, hx, hy, hz, -⟩ := h
  simp only [List.cons_append, List.nil_append]
  rw [scan_esc, scan_raw _ _ (hex_ne hw).1 (hex_ne hw).2, scan_raw _ _ (hex_ne hx).1 (hex_ne hx).2,
    scan_raw _ _ (hex_ne hy).1 (hex_ne hy).2, scan_raw _ _ (hex_ne hz).1 (hex_ne hz).2]
  cases scan r <;> rfl

/-- The closing quote is found. -/
theorem scan_complete {t s : List Nat} (h : Spec.Str t s) (r : List Nat) :
    scan (t ++ 34 :: r) = some (t, r) := by
  induction h with
  | nil => exact scan_quote r
  | raw c hq hb _ ih => rw [List.cons_append, scan_raw _ _ hq hb, ih]; rfl
  | letter e x he _ ih => rw [List.cons_append, List.cons_append, scan_esc, ih]; rfl
  | code ds u hu hs _ ih =>
    rw [List.cons_append, List.cons_append, List.append_assoc, scan_unit hu, ih]; rfl
  | pair ds es hi lo hu hv hh hl _ ih =>
    rw [List.cons_append, List.cons_append, List.append_assoc, scan_unit hu, List.cons_append,
      List.cons_append, List.append_assoc, scan_unit hv, ih]
    rfl

theorem cstr_self {s : List Nat} (h : 0 ∉ s) : cstr s = s := by
  induction s with
  | nil => rfl
  | cons c s ih =>
    have hc : c ≠ 0 := by rintro rfl; exact h List.mem_cons_self
    have := ih fun hm => h (List.mem_cons_of_mem _ hm)
    unfold cstr at this ⊢
    simp [hc]
    simpa using this

/-- `parse_string` reads a string up to its closing quote. -/
theorem parseString_complete {t s : List Nat} (h : Spec.Str t s) (r : List Nat) :
    parseString (34 :: (t ++ 34 :: r)) = some (cstr s, r) := by
  rw [parseString]
  simp only [ne_eq, not_true_eq_false, if_false, scan_complete h r, decode_complete h]
  rfl

/-! ## Nothing else is accepted -/

theorem scan_split : ∀ (n : Nat) (t b r : List Nat), t.length ≤ n → scan t = some (b, r) →
    t = b ++ 34 :: r
  | 0, [], _, _, _, h => by cases h
  | n + 1, [], _, _, _, h => by cases h
  | n + 1, c :: t, b, r, hn, h => by
    simp only [List.length_cons, Nat.add_le_add_iff_right] at hn
    rw [scan.eq_def] at h
    simp only at h
    split at h
    · next hc => subst hc; cases h; rfl
    · split at h
      · next hc =>
        subst hc
        cases t with
        | nil => cases h
        | cons d t =>
          simp only [Option.map_eq_some_iff, Prod.exists] at h
          obtain ⟨b', r', h1, h2⟩ := h
          cases h2
          simp only [List.length_cons] at hn
          rw [scan_split n t b' r (by omega) h1]; rfl
      · simp only [Option.map_eq_some_iff, Prod.exists] at h
        obtain ⟨b', r', h1, h2⟩ := h
        cases h2
        rw [scan_split n t b' r hn h1]; rfl

/-- No quote is left in the text between the quotes, other than after a backslash. -/
def Clean : List Nat → Prop
  | [] => True
  | c :: r =>
    c ≠ 34 ∧ (if c = 92 then
      match r with
      | [] => False
      | _ :: r' => Clean r'
    else Clean r)

theorem scan_clean : ∀ (n : Nat) (t b r : List Nat), t.length ≤ n → scan t = some (b, r) → Clean b
  | 0, [], _, _, _, h => by cases h
  | n + 1, [], _, _, _, h => by cases h
  | n + 1, c :: t, b, r, hn, h => by
    simp only [List.length_cons, Nat.add_le_add_iff_right] at hn
    rw [scan.eq_def] at h
    simp only at h
    split at h
    · cases h; trivial
    · next hq =>
      split at h
      · next hc =>
        subst hc
        cases t with
        | nil => cases h
        | cons d t =>
          simp only [Option.map_eq_some_iff, Prod.exists] at h
          obtain ⟨b', r', h1, h2⟩ := h
          cases h2
          simp only [List.length_cons] at hn
          have := scan_clean n t b' r (by omega) h1
          rw [Clean.eq_def]
          exact ⟨by omega, by simpa using this⟩
      · next hb =>
        simp only [Option.map_eq_some_iff, Prod.exists] at h
        obtain ⟨b', r', h1, h2⟩ := h
        cases h2
        have := scan_clean n t b' r hn h1
        rw [Clean.eq_def]
        exact ⟨hq, by simpa only [if_neg hb] using this⟩

theorem clean_raw {c : Nat} {r : List Nat} (h : Clean (c :: r)) (hb : c ≠ 92) : c ≠ 34 ∧ Clean r := by
  rw [Clean.eq_def] at h; simpa only [if_neg hb] using h

theorem clean_esc {d : Nat} {r : List Nat} (h : Clean (92 :: d :: r)) : Clean r := by
  rw [Clean.eq_def] at h; simpa using h.2

theorem clean_unit {a b c d u : Nat} {r : List Nat} (hu : Spec.Unit [a, b, c, d] u)
    (h : Clean (92 :: 117 :: a :: b :: c :: d :: r)) : Clean r := by
  obtain ⟨a', b', c', d', w, x, y, z, he, hw, hx, hy, hz, -⟩ := hu
  injection he with e1 he; injection he with e2 he; injection he with e3 he
  injection he with e4 _
  subst e1; subst e2; subst e3; subst e4
  have h1 := clean_esc h
  have h2 := (clean_raw h1 (hex_ne hw).2).2
  have h3 := (clean_raw h2 (hex_ne hx).2).2
  have h4 := (clean_raw h3 (hex_ne hy).2).2
  exact (clean_raw h4 (hex_ne hz).2).2

theorem utf8_ne {u : Nat} (h : u ≠ 0) (x : Nat) (hx : x ∈ Spec.utf8 u) : x ≠ 0 := by
  unfold Spec.utf8 at hx
  (repeat' split at hx) <;> simp at hx <;> omega

theorem utf8_zero : Spec.utf8 0 = [0] := rfl

theorem cstr_append {p s : List Nat} (h : ∀ x ∈ p, x ≠ 0) : cstr (p ++ s) = p ++ cstr s := by
  unfold cstr
  rw [List.takeWhile_append_of_pos]
  intro a ha
  simpa using h a ha

theorem four (r : List Nat) (h : ¬ r.length < 4) : ∃ a b c d r2, r = a :: b :: c :: d :: r2 := by
  match r, h with
  | a :: b :: c :: d :: r2, _ => exact ⟨a, b, c, d, r2, rfl⟩
  | [_, _, _], hl => simp at hl
  | [_, _], hl => simp at hl
  | [_], hl => simp at hl
  | [], hl => simp at hl

/-- What the second pass accepts is a string, or is cut at a zero or at an escape that is none. -/
theorem decode_sound : ∀ (n : Nat) (t s : List Nat), t.length ≤ n → Clean t → 0 ∉ t →
    decode t = some s → (Spec.Str t (cstr s) ∧ 0 ∉ s) ∨ Cut t (cstr s)
  | 0, [], s, _, _, _, h => by cases h; exact .inl ⟨.nil, by simp⟩
  | n + 1, [], s, _, _, _, h => by cases h; exact .inl ⟨.nil, by simp⟩
  | n + 1, c :: t, s, hn, hc, hz, h => by
    have lift : ∀ {p q t' s' : List Nat}, (∀ x ∈ q, x ≠ 0) →
        (∀ {t s}, Spec.Str t s → Spec.Str (p ++ t) (q ++ s)) →
        ((Spec.Str t' (cstr s') ∧ 0 ∉ s') ∨ Cut t' (cstr s')) →
        ((Spec.Str (p ++ t') (cstr (q ++ s')) ∧ 0 ∉ q ++ s') ∨ Cut (p ++ t') (cstr (q ++ s'))) := by
      intro p q t' s' hq hstep hor
      rw [cstr_append hq]
      rcases hor with ⟨h1, h2⟩ | ⟨p', ds, q', rfl, h2, h3, h4⟩
      · refine .inl ⟨hstep h1, ?_⟩
        intro hm
        rcases List.mem_append.1 hm with hm | hm
        · exact hq 0 hm rfl
        · exact h2 hm
      · exact .inr ⟨p ++ p', ds, q', by simp, hstep h2, h3, h4⟩
    simp only [List.length_cons, Nat.add_le_add_iff_right] at hn
    by_cases hb : c = 92
    · subst hb
      cases t with
      | nil => rw [decode.eq_def] at h; simp at h
      | cons e r1 =>
        simp only [List.length_cons] at hn
        by_cases he : e = 117
        · subst he
          by_cases hl : r1.length < 4
          · rw [decode_u_short r1 hl] at h; cases h
          obtain ⟨a, b, c, d, r2, rfl⟩ := four r1 hl
          have hz2 : 0 ∉ r2 := fun hm => hz (by simp [hm])
          simp only [List.length_cons] at hn
          rw [decode_u] at h
          rcases hex4_cases a b c d with hu | ⟨hu, hno⟩
          · split at h
            · cases h
            · next hlo =>
              split at h
              · next hhi =>
                split at h
                · next x y a' b' c' d' r3 =>
                  split at h
                  · cases h
                  · next hxy =>
                    split at h
                    · cases h
                    · next hv =>
                      have hx : x = 92 := by omega
                      have hy : y = 117 := by omega
                      subst hx; subst hy
                      simp only [Option.map_eq_some_iff] at h
                      obtain ⟨s', h1, rfl⟩ := h
                      have hz3 : 0 ∉ r3 := fun hm => hz2 (by simp [hm])
                      have hu' : Spec.Unit [a', b', c', d'] (hex4 a' b' c' d') := by
                        rcases hex4_cases a' b' c' d' with h | h
                        · exact h
                        · omega
                      have hc3 := clean_unit hu' (clean_unit hu hc)
                      generalize hex4 a b c d = u at *
                      generalize hex4 a' b' c' d' = v at *
                      obtain ⟨hi, rfl⟩ : ∃ hi, u = 0xD800 + hi := ⟨u - 0xD800, by omega⟩
                      obtain ⟨lo, rfl⟩ : ∃ lo, v = 0xDC00 + lo := ⟨v - 0xDC00, by omega⟩
                      rw [pair_eq hi lo (by omega) (by omega), encode_utf8 _ (by omega)]
                      simp only [List.length_cons] at hn
                      exact lift (p := [92, 117, a, b, c, d, 92, 117, a', b', c', d'])
                        (utf8_ne (by omega))
                        (fun hs => Spec.Str.pair [a, b, c, d] [a', b', c', d'] hi lo hu hu'
                          (by omega) (by omega) hs)
                        (decode_sound n r3 s' (by omega) hc3 hz3 h1)
                · cases h
              · next hhi =>
                simp only [Option.map_eq_some_iff] at h
                obtain ⟨s', h1, rfl⟩ := h
                have hlt := unit_lt hu
                rw [encode_utf8 _ (by omega)]
                by_cases h0 : hex4 a b c d = 0
                · right
                  rw [h0, utf8_zero]
                  exact ⟨[], [a, b, c, d], r2, rfl, by simpa [cstr] using Spec.Str.nil, rfl,
                    fun u hu => by rw [← hex4_unit hu, h0]⟩
                · exact lift (p := [92, 117, a, b, c, d]) (utf8_ne h0)
                    (fun hs => Spec.Str.code [a, b, c, d] _ hu (by omega) hs)
                    (decode_sound n r2 s' (by omega) (clean_unit hu hc) hz2 h1)
          · right
            rw [hu, if_neg (by omega), if_neg (by omega)] at h
            simp only [Option.map_eq_some_iff] at h
            obtain ⟨s', h1, rfl⟩ := h
            refine ⟨[], [a, b, c, d], r2, rfl, ?_, rfl, fun u hu => absurd hu (hno u)⟩
            have : cstr (encode 0 ++ s') = [] := rfl
            rw [this]; exact .nil
        · rw [decode_letter e r1 he] at h
          split at h
          · next x hx =>
            simp only [Option.map_eq_some_iff] at h
            obtain ⟨s', h1, rfl⟩ := h
            have hx' := (simple_iff e x).1 hx
            exact lift (p := [92, e]) (q := [x]) (by simpa using (letter_ne hx').2)
              (fun hs => Spec.Str.letter e x hx' hs)
              (decode_sound n r1 s' (by omega) (clean_esc hc) (fun hm => hz (by simp [hm])) h1)
          · cases h
    · rw [decode_raw c t hb] at h
      simp only [Option.map_eq_some_iff] at h
      obtain ⟨s', h1, rfl⟩ := h
      have hcl := clean_raw hc hb
      have hz' : 0 ∉ t := fun hm => hz (List.mem_cons_of_mem _ hm)
      have hc0 : c ≠ 0 := by rintro rfl; exact hz List.mem_cons_self
      exact lift (p := [c]) (q := [c]) (by simpa using hc0)
        (fun hs => Spec.Str.raw c hcl.1 hb hs) (decode_sound n t s' hn hcl.2 hz' h1)

theorem encode_length (c : Nat) : (encode c).length ≤ 4 := by
  unfold encode
  (repeat' split) <;> simp

theorem encode_length3 (c : Nat) (h : c < 0x10000) : (encode c).length ≤ 3 := by
  unfold encode
  (repeat' split) <;> simp <;> omega

theorem skipped_raw (c : Nat) (r : List Nat) (h : c ≠ 92) : skipped (c :: r) = skipped r := by
  rw [skipped.eq_def]; simp [h]

theorem skipped_esc (d : Nat) (r : List Nat) : skipped (92 :: d :: r) = 1 + skipped r := by
  rw [skipped.eq_def]; simp

/-- A byte more adds at most one backslash to the count. -/
theorem skipped_cons : ∀ (n : Nat) (c : Nat) (r : List Nat), r.length ≤ n →
    skipped r ≤ skipped (c :: r) ∧ skipped (c :: r) ≤ 1 + skipped r := by
  intro n
  induction n with
  | zero =>
    intro c r h
    have : r = [] := List.length_eq_zero_iff.1 (by omega)
    subst this
    rw [skipped.eq_def [c]]
    simp only [skipped]
    split <;> omega
  | succ n ih =>
    intro c r h
    by_cases hc : c = 92
    · subst hc
      cases r with
      | nil => rw [skipped.eq_def [92]]; simp [skipped]
      | cons d r =>
        simp only [List.length_cons] at h
        rw [skipped_esc]
        by_cases hd : d = 92
        · subst hd
          have := ih 92 r (by omega)
          omega
        · rw [skipped_raw d r hd]; omega
    · rw [skipped_raw c r hc]; omega

theorem skipped_unit {a b c d u : Nat} (hu : Spec.Unit [a, b, c, d] u) (r : List Nat) :
    skipped (92 :: 117 :: a :: b :: c :: d :: r) = 1 + skipped r := by
  obtain ⟨a', b', c', d', w, x, y, z, he, hw, hx, hy, hz, -⟩ := hu
  injection he with e1 he; injection he with e2 he; injection he with e3 he
  injection he with e4 _
  subst e1; subst e2; subst e3; subst e4
  rw [skipped_esc, skipped_raw _ _ (hex_ne hw).2, skipped_raw _ _ (hex_ne hx).2,
    skipped_raw _ _ (hex_ne hy).2, skipped_raw _ _ (hex_ne hz).2]

/-- The room that `parse_string` allocates holds the value. -/
theorem decode_room : ∀ (n : Nat) (t s : List Nat), t.length ≤ n →
    decode t = some s → s.length + skipped t ≤ t.length := by
  intro n
  induction n with
  | zero =>
    intro t s hn h
    have : t = [] := List.length_eq_zero_iff.1 (by omega)
    subst this; cases h; simp [skipped]
  | succ n ih =>
    intro t s hn h
    cases t with
    | nil => cases h; simp [skipped]
    | cons c t =>
      simp only [List.length_cons, Nat.add_le_add_iff_right] at hn
      by_cases hb : c = 92
      · subst hb
        cases t with
        | nil => rw [decode.eq_def] at h; simp at h
        | cons e r1 =>
          simp only [List.length_cons] at hn
          by_cases he : e = 117
          · subst he
            by_cases hl : r1.length < 4
            · rw [decode_u_short r1 hl] at h; cases h
            obtain ⟨a, b, c, d, r2, rfl⟩ := four r1 hl
            simp only [List.length_cons] at hn
            rw [decode_u] at h
            rcases hex4_cases a b c d with hu | ⟨hu, hno⟩
            · rw [skipped_unit hu]
              split at h
              · cases h
              · split at h
                · split at h
                  · next x y a' b' c' d' r3 =>
                    split at h
                    · cases h
                    · split at h
                      · cases h
                      · next hxy hv =>
                        have hx : x = 92 := by omega
                        have hy : y = 117 := by omega
                        subst hx; subst hy
                        simp only [Option.map_eq_some_iff] at h
                        obtain ⟨s', h1, rfl⟩ := h
                        have hu' : Spec.Unit [a', b', c', d'] (hex4 a' b' c' d') := by
                          rcases hex4_cases a' b' c' d' with h | h
                          · exact h
                          · omega
                        simp only [List.length_cons] at hn
                        have := ih r3 s' (by omega) h1
                        have := encode_length (pair (hex4 a b c d) (hex4 a' b' c' d'))
                        rw [skipped_unit hu']
                        simp only [List.length_append, List.length_cons]
                        omega
                  · cases h
                · simp only [Option.map_eq_some_iff] at h
                  obtain ⟨s', h1, rfl⟩ := h
                  have := ih r2 s' (by omega) h1
                  have := encode_length3 _ (hex4_lt a b c d)
                  simp only [List.length_append, List.length_cons]
                  omega
            · rw [hu, if_neg (by omega), if_neg (by omega)] at h
              simp only [Option.map_eq_some_iff] at h
              obtain ⟨s', h1, rfl⟩ := h
              have := ih r2 s' (by omega) h1
              have e0 : (encode 0).length = 1 := rfl
              have h4 := (skipped_cons _ d r2 (Nat.le_refl _)).2
              have h3 := (skipped_cons _ c (d :: r2) (Nat.le_refl _)).2
              have h2 := (skipped_cons _ b (c :: d :: r2) (Nat.le_refl _)).2
              have h1 := (skipped_cons _ a (b :: c :: d :: r2) (Nat.le_refl _)).2
              rw [skipped_esc]
              simp only [List.length_append, List.length_cons, e0]
              omega
          · rw [decode_letter e r1 he] at h
            split at h
            · simp only [Option.map_eq_some_iff] at h
              obtain ⟨s', h1, rfl⟩ := h
              have := ih r1 s' (by omega) h1
              rw [skipped_esc]
              simp only [List.length_cons]
              omega
            · cases h
      · rw [decode_raw c t hb] at h
        simp only [Option.map_eq_some_iff] at h
        obtain ⟨s', h1, rfl⟩ := h
        have := ih t s' hn h1
        rw [skipped_raw c t hb]
        simp only [List.length_cons]
        omega

/-! ## Printing -/

theorem printByte_str {c : Nat} (h : c < 256) {t s : List Nat} (hs : Spec.Str t s) :
    Spec.Str (printByte c ++ t) (c :: s) := by
  by_cases h1 : c > 31 ∧ c ≠ 34 ∧ c ≠ 92
  · unfold printByte
    rw [if_pos h1]
    exact .raw c h1.2.1 h1.2.2 hs
  by_cases h2 : c = 92
  · subst h2; exact .letter 92 92 (by simp [Spec.letters]) hs
  by_cases h3 : c = 34
  · subst h3; exact .letter 34 34 (by simp [Spec.letters]) hs
  by_cases h4 : c = 8
  · subst h4; exact .letter 98 8 (by simp [Spec.letters]) hs
  by_cases h5 : c = 12
  · subst h5; exact .letter 102 12 (by simp [Spec.letters]) hs
  by_cases h6 : c = 10
  · subst h6; exact .letter 110 10 (by simp [Spec.letters]) hs
  by_cases h7 : c = 13
  · subst h7; exact .letter 114 13 (by simp [Spec.letters]) hs
  by_cases h8 : c = 9
  · subst h8; exact .letter 116 9 (by simp [Spec.letters]) hs
  have hc : c < 32 := by omega
  have hx : ∀ n, n < 16 → Hex (hexDigit n) n := by
    intro n hn
    unfold hexDigit
    split
    · next h => exact .digit n h
    · have := Hex.lower (n - 10) (by omega)
      have e1 : 97 + (n - 10) = 87 + n := by omega
      have e2 : 10 + (n - 10) = n := by omega
      rwa [e1, e2] at this
  have hu : Spec.Unit [48, 48, hexDigit (c / 16), hexDigit (c % 16)] c :=
    ⟨48, 48, _, _, 0, 0, c / 16, c % 16, rfl, .digit 0 (by omega), .digit 0 (by omega),
      hx _ (by omega), hx _ (by omega), by omega⟩
  have := Spec.Str.code _ c hu (by omega) hs
  have e : Spec.utf8 c = [c] := by unfold Spec.utf8; rw [if_pos (by omega)]
  rw [e] at this
  unfold printByte
  simp only [h1, h2, h3, h4, h5, h6, h7, h8, if_false]
  exact this

theorem printBytes_str : ∀ {s : List Nat}, (∀ c ∈ s, c < 256) → Spec.Str (printBytes s) s
  | [], _ => .nil
  | c :: _, h => printByte_str (h c List.mem_cons_self)
      (printBytes_str fun d hd => h d (List.mem_cons_of_mem _ hd))

theorem printByte_length (c : Nat) :
    (printByte c).length = 1 +
      (if c = 34 ∨ c = 92 ∨ c = 8 ∨ c = 12 ∨ c = 10 ∨ c = 13 ∨ c = 9 then 1
       else if c < 32 then 5 else 0) := by
  unfold printByte
  by_cases h1 : c > 31 ∧ c ≠ 34 ∧ c ≠ 92
  · rw [if_pos h1, if_neg (by omega), if_neg (by omega)]; rfl
  rw [if_neg h1]
  by_cases h2 : c = 34 ∨ c = 92 ∨ c = 8 ∨ c = 12 ∨ c = 10 ∨ c = 13 ∨ c = 9
  · rw [if_pos h2]
    rcases h2 with h | h | h | h | h | h | h <;> subst h <;> rfl
  · have hc : c < 32 := by omega
    rw [if_neg h2, if_pos hc]
    simp only [not_or] at h2
    obtain ⟨a1, a2, a3, a4, a5, a6, a7⟩ := h2
    rw [if_neg a2, if_neg a1, if_neg a3, if_neg a4, if_neg a5, if_neg a6, if_neg a7]
    rfl

theorem printBytes_length : ∀ (s : List Nat), (printBytes s).length = s.length + escapes s
  | [] => rfl
  | c :: s => by
    rw [printBytes, escapes, List.length_append, printByte_length, printBytes_length s]
    simp only [List.length_cons]
    omega

theorem printByte_visible {c x : Nat} (hx : x ∈ printByte c) (h : c < 256) : 32 ≤ x := by
  unfold printByte at hx
  have hd : ∀ n, 48 ≤ hexDigit n := by intro n; unfold hexDigit; split <;> omega
  have := hd (c / 16)
  have := hd (c % 16)
  split at hx
  · simp at hx; omega
  split at hx
  · simp at hx; omega
  split at hx
  · simp at hx; omega
  split at hx
  · simp at hx; omega
  split at hx
  · simp at hx; omega
  split at hx
  · simp at hx; omega
  split at hx
  · simp at hx; omega
  split at hx
  · simp at hx; omega
  · simp at hx; omega

end Verif.CJson
