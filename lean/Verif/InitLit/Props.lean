import Verif.InitLit.Model

/-!
# What holds of initialisers that are written straight into the C program

C123 embedded files, C124 slice literals, C125 their memory.
-/

namespace Verif.InitLit

open Spec

/-! ## C123: embedded files -/

theorem hexDigit_val : ∀ n, n < 16 → hexVal (hexDigit n) = some n := by decide +kernel

theorem hex2_val (b : UInt8) : Hex (hex2 b) b.toNat := by
  have hb : b.toNat < 256 := b.toNat_lt
  have h1 := hexDigit_val (b.toNat / 16) (by omega)
  have h2 := hexDigit_val (b.toNat % 16) (by omega)
  have h : Hex ([hexDigit (b.toNat / 16)] ++ [hexDigit (b.toNat % 16)])
      (b.toNat / 16 * 16 + b.toNat % 16) := .snoc (.one h1) h2
  have e : b.toNat / 16 * 16 + b.toNat % 16 = b.toNat := by omega
  rw [e] at h
  exact h

theorem inits_bytes (bs : List UInt8) :
    Inits (bs.flatMap (byteText false)) (bs.map UInt8.toNat) := by
  induction bs with
  | nil => exact .nil
  | cons b bs ih =>
    rw [List.flatMap_cons, List.map_cons]
    exact .cons (hex2_val b) ih

theorem chars_bytes (bs : List UInt8) :
    Chars (bs.flatMap (byteText true)) (bs.map UInt8.toNat) := by
  induction bs with
  | nil => exact .nil
  | cons b bs ih =>
    rw [List.flatMap_cons, List.map_cons]
    refine .cons (hex2_val b) b.toNat_lt ?_ ih
    intro c hc
    cases bs with
    | nil => simp at hc
    | cons d ds =>
      have : c = '\\' := by
        rw [List.flatMap_cons, byteText, if_pos rfl] at hc
        have e : "\\x".toList = ['\\', 'x'] := by decide
        rw [e] at hc
        simpa using hc.symm
      subst this
      decide

theorem dec_spec (n : Nat) : Dec (dec n) n := by
  induction n using Nat.strongRecOn with
  | _ n ih =>
    rw [dec]
    split
    · rename_i h
      exact .one h
    · have h := Dec.snoc (ih (n / 10) (by omega)) (by omega) (v := n % 10) (by omega)
      have e : n / 10 * 10 + n % 10 = n := by omega
      rw [e] at h
      exact h

theorem dec_length (n k : Nat) (hk : 0 < k) (h : n < 10 ^ k) : (dec n).length ≤ k := by
  induction k generalizing n with
  | zero => omega
  | succ k ih =>
    rw [dec]
    split
    · simp
    · rename_i hn
      have : n / 10 < 10 ^ k := by
        rw [Nat.pow_succ] at h
        omega
      have hk : 0 < k := by
        cases k with
        | zero => simp at h; omega
        | succ k => omega
      have := ih (n / 10) hk this
      rw [List.length_append, List.length_singleton]
      omega

theorem byteText_length (b : UInt8) :
    (byteText false b).length = 5 ∧ (byteText true b).length = 4 := by
  constructor <;> rfl

theorem bytes_length (str : Bool) (bs : List UInt8) :
    (bs.flatMap (byteText str)).length = (if str then 4 else 5) * bs.length := by
  induction bs with
  | nil => simp
  | cons b bs ih =>
    rw [List.flatMap_cons, List.length_append, ih, List.length_cons]
    cases str
    · rw [(byteText_length b).1]; simp; omega
    · rw [(byteText_length b).2]; simp; omega

theorem slice_not_string (t : Str) : isString (.slice t) = false := by
  unfold isString isStringType
  have e : "Slice_".toList = ['S', 'l', 'i', 'c', 'e', '_'] := by decide
  rw [e]
  simp

theorem opening_slice (t : Str) : opening (.slice t) =
    "(Slice_".toList ++ t ++ "){.data=(".toList ++ t ++ "[]){".toList := rfl

theorem opening_fixed (t : Str) (n : Nat) : opening (.fixed t n) = "(".toList ++ t ++ "[]){".toList :=
  rfl

/-- Size of a file. -/
def Size (bs : List UInt8) : Prop := bs.length < 2 ^ 63

theorem dec_size {bs : List UInt8} (h : Size bs) : (dec bs.length).length ≤ 19 := by
  apply dec_length _ _ (by decide)
  unfold Size at h
  omega

/-- C123: a file without a type, or as a slice of a type with a name of at most 90 characters: the C
text is a slice whose data are the bytes of the file, in order, and whose length is theirs. -/
theorem embed_slice (fs : Str → Option (List UInt8)) {name : Str} (hn : name.length < 256)
    {bs : List UInt8} (hf : fs name = some bs) (hs : Size bs) (t : Str) (ht : t.length ≤ 90) :
    ∃ body ds, Inits body (bs.map UInt8.toNat) ∧ Dec ds bs.length ∧
      embed fs name (.slice t) = .ok ("(Slice_".toList ++ t ++ "){.data=(".toList ++ t ++
        "[]){".toList ++ body ++ "},.len=".toList ++ ds ++ ",.cap=".toList ++ ds ++ "}".toList) := by
  refine ⟨_, _, inits_bytes bs, dec_spec _, ?_⟩
  have hd := dec_size hs
  have ho : (opening (.slice t)).take 7 = "(Slice_".toList := by
    rw [opening_slice]
    have e : "(Slice_".toList = ['(', 'S', 'l', 'i', 'c', 'e', '_'] := by decide
    rw [e]
    rfl
  have hc : closing (.slice t) bs.length =
      "},.len=".toList ++ dec bs.length ++ ",.cap=".toList ++ dec bs.length ++ "}".toList := by
    unfold closing
    rw [slice_not_string, if_neg (by simp), if_pos ho]
  have e1 : ("(Slice_".toList).length = 7 := by decide
  have e2 : ("){.data=(".toList).length = 9 := by decide
  have e3 : ("[]){".toList).length = 4 := by decide
  have e4 : ("},.len=".toList).length = 7 := by decide
  have e5 : (",.cap=".toList).length = 6 := by decide
  have e6 : ("}".toList).length = 1 := by decide
  have hb := bytes_length false bs
  simp only [Bool.false_eq_true, if_false] at hb
  unfold embed
  rw [if_pos hn, hf]
  simp only [slice_not_string, hc]
  have hnf : nameFits (.slice t) = true := by simp [nameFits]; omega
  rw [if_pos hnf, if_pos]
  · simp only [opening_slice, List.append_assoc]
  · simp only [opening_slice, List.length_append, hb, e1, e2, e3, e4, e5, e6]
    omega

/-- C123: a file without a type is a slice of characters. -/
theorem embed_default (fs : Str → Option (List UInt8)) (name : Str) :
    embed fs name .none = embed fs name (.slice "char".toList) := by
  have h1 : opening .none = opening (.slice "char".toList) := by decide +kernel
  have h2 : isString .none = isString (.slice "char".toList) := by decide +kernel
  have h3 : ∀ n, closing .none n = closing (.slice "char".toList) n := by
    intro n
    unfold closing
    rw [h1, h2]
  have h4 : nameFits .none = nameFits (.slice "char".toList) := by decide +kernel
  unfold embed
  rw [h1, h2, h4]
  simp only [h3]

/-- C123: a file as a string: the text is a string literal of C with the bytes of the file; no escape
runs into the next. -/
theorem embed_string (fs : Str → Option (List UInt8)) {name : Str} (hn : name.length < 256)
    {bs : List UInt8} (hf : fs name = some bs) :
    ∃ body, Chars body (bs.map UInt8.toNat) ∧
      embed fs name (.other "string".toList) = .ok ("(char*)\"".toList ++ body ++ ['"']) := by
  refine ⟨_, chars_bytes bs, ?_⟩
  have h1 : opening (.other "string".toList) = "(char*)\"".toList := by decide +kernel
  have h2 : isString (.other "string".toList) = true := by decide +kernel
  have h3 : ∀ n, closing (.other "string".toList) n = ['"'] := by
    intro n
    unfold closing
    rw [h2, if_pos rfl]
  have e1 : ("(char*)\"".toList).length = 8 := by decide
  have hb := bytes_length true bs
  simp only [if_true] at hb
  unfold embed
  rw [if_pos hn, hf]
  simp only [h1, h2, h3]
  rw [if_pos (by rfl), if_pos]
  simp only [List.length_append, hb, e1, List.length_singleton]
  omega

/-- A file of bytes is the string of those before its first NUL. -/
def cvalue (ns : List Nat) : List Nat := ns.takeWhile (· ≠ 0)

/-- C123, violated: of a file with a NUL byte a string keeps what comes before it, and its length is
nowhere to be had. -/
theorem embed_nul_violated (fs : Str → Option (List UInt8)) {name : Str} (hn : name.length < 256)
    {a b : List UInt8} (hf : fs name = some (a ++ 0 :: b)) :
    ∃ body ns, embed fs name (.other "string".toList) = .ok ("(char*)\"".toList ++ body ++ ['"']) ∧
      Chars body ns ∧ (cvalue ns).length ≤ a.length ∧ ns.length = a.length + 1 + b.length := by
  obtain ⟨body, hc, he⟩ := embed_string fs hn hf
  refine ⟨body, _, he, hc, ?_, by simp; omega⟩
  clear he hc hf
  induction a with
  | nil => simp [cvalue]
  | cons x a ih =>
    rw [List.cons_append, List.map_cons]
    unfold cvalue at *
    rw [List.takeWhile_cons]
    split
    · rw [List.length_cons, List.length_cons]; omega
    · simp

/-- C123, violated: the size of an array does not count.  `embed "bios.bin" as u8[1024]` is an array of
as many elements as the file has bytes. -/
theorem embed_size_violated (fs : Str → Option (List UInt8)) (name t : Str) (n m : Nat) :
    embed fs name (.fixed t n) = embed fs name (.fixed t m) := rfl

/-- What it is, for a type other than `char` whose name does not begin with `Slice_`. -/
theorem embed_fixed (fs : Str → Option (List UInt8)) {name : Str} (hn : name.length < 256)
    {bs : List UInt8} (hf : fs name = some bs) {t : Str} (n : Nat) (ht : t.length ≤ 200)
    (h1 : t ≠ "char".toList) (h2 : t.take 6 ≠ "Slice_".toList) :
    ∃ body, Inits body (bs.map UInt8.toNat) ∧
      embed fs name (.fixed t n) = .ok ("(".toList ++ t ++ "[]){".toList ++ body ++ ['}']) := by
  refine ⟨_, inits_bytes bs, ?_⟩
  have hs : isString (.fixed t n) = false := by
    show isStringType (t ++ ['*']) = false
    unfold isStringType
    have e1 : ¬ t ++ ['*'] = "string".toList := by
      intro h
      have := congrArg List.getLast? h
      rw [List.getLast?_concat] at this
      exact absurd this (by decide)
    have e2 : ¬ t ++ ['*'] = "char*".toList := by
      intro h
      have e : "char*".toList = "char".toList ++ ['*'] := by decide
      rw [e] at h
      exact h1 (List.append_cancel_right h)
    rw [decide_eq_false e1, decide_eq_false e2]
    rfl
  have ho : (opening (.fixed t n)).take 7 ≠ "(Slice_".toList := by
    rw [opening_fixed]
    have e : "(Slice_".toList = '(' :: "Slice_".toList := by decide
    have e' : "(".toList = ['('] := by decide
    rw [e, e']
    intro h
    rw [List.append_assoc, List.singleton_append, List.take_succ_cons] at h
    injection h with _ h
    by_cases hl : 6 ≤ t.length
    · rw [List.take_append_of_le_length hl] at h
      exact h2 h
    · have hm : '[' ∈ List.take 6 (t ++ "[]){".toList) := by
        have e3 : "[]){".toList = '[' :: "]){".toList := by decide
        rw [e3, List.take_append, List.mem_append]
        right
        obtain ⟨k, hk⟩ : ∃ k, 6 - t.length = k + 1 := ⟨5 - t.length, by omega⟩
        rw [hk, List.take_succ_cons]
        simp
      rw [h] at hm
      exact absurd hm (by decide)
  have hc : closing (.fixed t n) bs.length = ['}'] := by
    unfold closing
    rw [hs, if_neg (by simp), if_neg ho]
  have e1 : ("(".toList).length = 1 := by decide
  have e2 : ("[]){".toList).length = 4 := by decide
  have hb := bytes_length false bs
  simp only [Bool.false_eq_true, if_false] at hb
  unfold embed
  rw [if_pos hn, hf]
  simp only [hs, hc]
  rw [if_pos (by rfl), if_pos]
  · simp only [opening_fixed, List.append_assoc]
  · simp only [opening_fixed, List.length_append, hb, e1, e2, List.length_singleton]
    omega

/-- C123, violated: as an array of `char`, the bytes are written like those of a string, into braces:
the text has one quotation mark, and is no C. -/
theorem embed_char_array_violated (fs : Str → Option (List UInt8)) {name : Str}
    (hn : name.length < 256) {bs : List UInt8} (hf : fs name = some bs) (n : Nat) :
    ∃ body, embed fs name (.fixed "char".toList n) =
      .ok ("(char[]){".toList ++ body ++ ['"']) ∧ '"' ∉ "(char[]){".toList ++ body := by
  refine ⟨bs.flatMap (byteText true), ?_, ?_⟩
  · have h1 : opening (.fixed "char".toList n) = "(char[]){".toList := by
      rw [opening_fixed]
      decide +kernel
    have h2 : isString (.fixed "char".toList n) = true := by
      show isStringType ("char".toList ++ ['*']) = true
      decide +kernel
    have h3 : closing (.fixed "char".toList n) bs.length = ['"'] := by
      unfold closing
      rw [h2, if_pos rfl]
    have e1 : ("(char[]){".toList).length = 9 := by decide
    have hb := bytes_length true bs
    simp only [if_true] at hb
    unfold embed
    rw [if_pos hn, hf]
    simp only [h1, h2, h3]
    rw [if_pos (by rfl), if_pos]
    simp only [List.length_append, hb, e1, List.length_singleton]
    omega
  · have hq : ∀ n, n < 16 → hexDigit n ≠ '"' := by decide +kernel
    intro h
    rcases List.mem_append.mp h with h | h
    · exact absurd h (by decide)
    · obtain ⟨b, -, hb⟩ := List.mem_flatMap.mp h
      have hb256 : b.toNat < 256 := b.toNat_lt
      unfold byteText at hb
      rw [if_pos rfl] at hb
      rcases List.mem_append.mp hb with hb | hb
      · exact absurd hb (by decide)
      · simp only [hex2, List.mem_cons, List.not_mem_nil, or_false] at hb
        rcases hb with hb | hb
        · exact hq _ (by omega) hb.symm
        · exact hq _ (by omega) hb.symm

/-- C123: a file that is not there stops the compilation. -/
theorem embed_missing (fs : Str → Option (List UInt8)) {name : Str} (hn : name.length < 256)
    (hf : fs name = none) (tg : Target) : embed fs name tg = .panic := by
  unfold embed
  rw [if_pos hn, hf]

/-- C123, violated: every word that begins with `embed` is taken for it; `let x = embedding;` wants a
file name. -/
theorem embed_word_violated (r : Str) : isEmbed ("embed".toList ++ r) = true := by
  unfold isEmbed
  exact List.isPrefixOf_iff_prefix.mpr ⟨r, rfl⟩

/-! ## C125: the memory of embedded files -/

/-- C125: when exactly the text of a slice fits its block. -/
theorem embed_fits_iff (fs : Str → Option (List UInt8)) {name : Str} {bs : List UInt8}
    (hf : fs name = some bs) (t : Str) :
    embed fs name (.slice t) ≠ .ub ↔
      name.length < 256 ∧ t.length < 250 ∧
        2 * t.length + 2 * (dec bs.length).length < bs.length + 222 := by
  have ho : (opening (.slice t)).take 7 = "(Slice_".toList := by
    rw [opening_slice]
    have e : "(Slice_".toList = ['(', 'S', 'l', 'i', 'c', 'e', '_'] := by decide
    rw [e]
    rfl
  have hc : closing (.slice t) bs.length =
      "},.len=".toList ++ dec bs.length ++ ",.cap=".toList ++ dec bs.length ++ "}".toList := by
    unfold closing
    rw [slice_not_string, if_neg (by simp), if_pos ho]
  have e1 : ("(Slice_".toList).length = 7 := by decide
  have e2 : ("){.data=(".toList).length = 9 := by decide
  have e3 : ("[]){".toList).length = 4 := by decide
  have e4 : ("},.len=".toList).length = 7 := by decide
  have e5 : (",.cap=".toList).length = 6 := by decide
  have e6 : ("}".toList).length = 1 := by decide
  have hb := bytes_length false bs
  simp only [Bool.false_eq_true, if_false] at hb
  have hl : (opening (.slice t) ++ bs.flatMap (byteText false) ++ closing (.slice t) bs.length).length =
      20 + 2 * t.length + 5 * bs.length + (14 + 2 * (dec bs.length).length) := by
    rw [hc]
    simp only [opening_slice, List.length_append, hb, e1, e2, e3, e4, e5, e6]
    omega
  unfold embed
  by_cases hn : name.length < 256
  · rw [if_pos hn, hf]
    simp only [slice_not_string]
    by_cases hf : nameFits (.slice t) = true
    · rw [if_pos hf, hl]
      simp [nameFits] at hf
      by_cases hfit : 20 + 2 * t.length + 5 * bs.length + (14 + 2 * (dec bs.length).length) <
          bs.length * 6 + 256
      · rw [if_pos hfit]
        simp
        exact ⟨hn, by omega, by omega⟩
      · rw [if_neg hfit]
        simp
        intro _ _
        omega
    · rw [if_neg hf]
      simp [nameFits] at hf
      simp
      intro _ h
      omega
  · rw [if_neg hn]
    simp [hn]

/-- C125, violated: a file name of 256 characters overruns its buffer. -/
theorem long_name_violated (fs : Str → Option (List UInt8)) {name : Str} (hn : 256 ≤ name.length)
    (tg : Target) : embed fs name tg = .ub := by
  unfold embed
  rw [if_neg (by omega)]

/-! ## C124: slice literals -/

theorem inner_element {i : List Tok} (hi : Inner i) (d : Int) (hd : 0 < d) (r : List Tok) :
    element (i ++ r) d = (i ++ (element r d).1, (element r d).2) := by
  induction hi generalizing d r with
  | nil => rfl
  | tok ht _ ih =>
    rename_i t r' _
    rw [List.cons_append, element, if_neg (by omega)]
    have h1 : ¬ (t.kind = .lbracket ∨ t.kind = .lparen) := by
      rcases ht with h | h <;> rw [h] <;> decide
    have h2 : ¬ (t.kind = .rbracket ∨ t.kind = .rparen) := by
      rcases ht with h | h <;> rw [h] <;> decide
    simp only [if_neg h1, if_neg h2]
    rw [ih d hd r]
    rfl
  | group hk _ _ ih1 ih2 =>
    rename_i o c i' r' _ _
    rw [List.append_assoc, List.cons_append, element, if_neg (by omega)]
    have h1 : o.kind = .lbracket ∨ o.kind = .lparen := by
      rcases hk with h | h
      · exact .inl h.1
      · exact .inr h.1
    have h2 : ¬ (o.kind = .rbracket ∨ o.kind = .rparen) := by
      rcases hk with h | h <;> rw [h.1] <;> decide
    simp only [if_pos h1, if_neg h2]
    rw [ih1 (d + 1) (by omega), List.cons_append, element, if_neg (by omega)]
    have h3 : ¬ (c.kind = .lbracket ∨ c.kind = .lparen) := by
      rcases hk with h | h <;> rw [h.2] <;> decide
    have h4 : c.kind = .rbracket ∨ c.kind = .rparen := by
      rcases hk with h | h
      · exact .inl h.2
      · exact .inr h.2
    simp only [if_neg h3, if_pos h4]
    rw [show d + 1 - 1 = d by omega, ih2 d hd]
    simp

/-- The loop over an element takes the element, and stops in front of the comma or the bracket. -/
theorem nested_element {e : List Tok} (he : Nested e) {t : Tok}
    (ht : t.kind = .comma ∨ t.kind = .rbracket) (r : List Tok) :
    element (e ++ t :: r) 0 = (e, t :: r) := by
  induction he with
  | nil => rw [List.nil_append, element, if_pos ⟨rfl, ht⟩]
  | tok hk _ ih =>
    rename_i u r' _
    rw [List.cons_append, element, if_neg (by rw [hk]; decide)]
    have h1 : ¬ (u.kind = .lbracket ∨ u.kind = .lparen) := by rw [hk]; decide
    have h2 : ¬ (u.kind = .rbracket ∨ u.kind = .rparen) := by rw [hk]; decide
    simp only [if_neg h1, if_neg h2]
    rw [ih]
  | group hk hi _ ih =>
    rename_i o c i' r' _
    have h0 : ¬ ((0 : Int) = 0 ∧ (o.kind = .comma ∨ o.kind = .rbracket)) := by
      rcases hk with h | h <;> rw [h.1] <;> decide
    rw [List.append_assoc, List.cons_append, element, if_neg h0]
    have h1 : o.kind = .lbracket ∨ o.kind = .lparen := by
      rcases hk with h | h
      · exact .inl h.1
      · exact .inr h.1
    have h2 : ¬ (o.kind = .rbracket ∨ o.kind = .rparen) := by
      rcases hk with h | h <;> rw [h.1] <;> decide
    simp only [if_pos h1, if_neg h2]
    rw [inner_element hi (0 + 1) (by omega), List.cons_append, element, if_neg (by omega)]
    have h3 : ¬ (c.kind = .lbracket ∨ c.kind = .lparen) := by
      rcases hk with h | h <;> rw [h.2] <;> decide
    have h4 : c.kind = .rbracket ∨ c.kind = .rparen := by
      rcases hk with h | h
      · exact .inl h.2
      · exact .inr h.2
    simp only [if_neg h3, if_pos h4]
    rw [show (0 : Int) + 1 - 1 = 0 by omega, ih]
    simp

theorem nested_head {t : Tok} {r : List Tok} (h : Nested (t :: r)) :
    t.kind ≠ .rbracket ∧ t.kind ≠ .comma := by
  generalize hx : t :: r = x at h
  cases h with
  | nil => simp at hx
  | tok hk _ =>
    injection hx with hx _
    subst hx
    rw [hk]; decide
  | group hk _ _ =>
    rw [List.cons_append] at hx
    injection hx with hx _
    subst hx
    rcases hk with h | h <;> rw [h.1] <;> decide

/-- The text when an element is added. -/
def joined (c : Str) (n : Nat) (e : Str) : Str := (if n > 0 then c ++ ", ".toList else c) ++ e

theorem round_element {e : List Tok} (he : Nested e) (h0 : e ≠ []) {t : Tok}
    (ht : t.kind = .comma ∨ t.kind = .rbracket) (r : List Tok) {c : Str} {cap n : Nat}
    (hcap : 128 ≤ cap) (hc : c.length < cap) (hl : (raw e).length ≤ 123) :
    ∃ cap', 128 ≤ cap' ∧ (joined c n (raw e)).length < cap' ∧
      round ⟨e ++ t :: r, c, cap, n⟩ = .ok (.more ⟨t :: r, joined c n (raw e), cap', n + 1⟩) := by
  have hsep : (", ".toList).length = 2 := by decide
  have hj : (joined c n (raw e)).length ≤ c.length + 2 + (raw e).length := by
    unfold joined
    split <;> simp only [List.length_append, hsep] <;> omega
  have hadd : ∃ cap', 128 ≤ cap' ∧ (joined c n (raw e)).length < cap' ∧
      addElement ⟨e ++ t :: r, c, cap, n⟩ = .ok ⟨t :: r, joined c n (raw e), cap', n + 1⟩ := by
    unfold addElement
    simp only [nested_element he ht r]
    refine ⟨if c.length + (raw e).length + 5 > cap then cap * 2 else cap, ?_, ?_, ?_⟩
    · split <;> omega
    · split <;> omega
    · rw [if_pos]
      · rfl
      · show (joined c n (raw e)).length < _
        split <;> omega
  obtain ⟨cap', a, b, c'⟩ := hadd
  refine ⟨cap', a, b, ?_⟩
  cases e with
  | nil => exact absurd rfl h0
  | cons u e =>
    obtain ⟨k1, k2⟩ := nested_head he
    unfold round
    simp only [List.cons_append]
    rw [if_neg k1, if_neg k2]
    rw [List.cons_append] at c'
    rw [c']
    rfl

/-- Elements behind some text. -/
def joinAll : Str → Nat → List Str → Str
  | c, _, [] => c
  | c, n, e :: es => joinAll (joined c n e) (n + 1) es

theorem rounds_elems {ts : List Tok} {es : List (List Tok)} (h : Elems ts es) {b : Tok}
    (hb : b.kind = .rbracket) (rest : List Tok) (hl : ∀ e ∈ es, (raw e).length ≤ 123) {c : Str}
    {cap n : Nat} (hcap : 128 ≤ cap) (hc : c.length < cap) :
    ∃ k cap', rounds k ⟨ts ++ b :: rest, c, cap, n⟩ =
      .ok (.done ⟨rest, joinAll c n (es.map raw), cap', n + es.length⟩) := by
  induction h generalizing c cap n with
  | one he h0 =>
    rename_i e
    obtain ⟨cap', -, -, hr⟩ := round_element he h0 (.inr hb) rest (n := n) hcap hc
      (hl _ (by simp))
    refine ⟨2, cap', ?_⟩
    rw [rounds, hr]
    simp only [Res.ok_bind, rounds, round, if_pos hb]
    rfl
  | cons he h0 hk _ ih =>
    rename_i e r k es _
    obtain ⟨cap', h1, h2, hr⟩ := round_element he h0 (.inl hk) (r ++ b :: rest) (n := n) hcap hc
      (hl _ (by simp))
    obtain ⟨m, cap'', hm⟩ := ih (fun x hx => hl x (by simp [hx])) (n := n + 1) h1 h2
    refine ⟨m + 2, cap'', ?_⟩
    have e1 : e ++ k :: r ++ b :: rest = e ++ k :: (r ++ b :: rest) := by simp
    have hne : ¬ k.kind = .rbracket := by rw [hk]; decide
    rw [e1, rounds, hr]
    simp only [Res.ok_bind, rounds, round, if_neg hne, if_pos hk]
    rw [hm]
    simp only [List.map_cons, joinAll, List.length_cons]
    rw [show n + 1 + es.length = n + (es.length + 1) by omega]

theorem joinAll_listed (es : List Str) (c : Str) (n : Nat) :
    joinAll c (n + 1) es = match es with
      | [] => c
      | _ :: _ => c ++ ", ".toList ++ listed es := by
  induction es generalizing c n with
  | nil => rfl
  | cons e es ih =>
    rw [joinAll, ih]
    cases es with
    | nil => simp [joined, listed]
    | cons f es => simp [joined, listed]

theorem joinAll_start (es : List Str) : joinAll [] 0 es = listed es := by
  cases es with
  | nil => rfl
  | cons e es =>
    rw [joinAll, joinAll_listed]
    cases es with
    | nil => simp [joined, listed]
    | cons f es => simp [joined, listed]

/-- C124: a slice literal of elements of at most 123 characters each, for a type with a name of at most
35: the C text has the elements in order, and their number is the length. -/
theorem array_literal_partial {ts : List Tok} {es : List (List Tok)} (h : Elems ts es) {b : Tok}
    (hb : b.kind = .rbracket) (rest : List Tok) (hl : ∀ e ∈ es, (raw e).length ≤ 123) {t : Str}
    (ht : t.length ≤ 35) (hn : es.length < 10 ^ 10) :
    ∃ k ds, Dec ds es.length ∧
      arrayLiteral k ("Slice_".toList ++ t) (ts ++ b :: rest) = .ok (some
        ("(Slice_".toList ++ t ++ "){.data=(".toList ++ t ++ "[]){".toList ++
          listed (es.map raw) ++ "},.len=".toList ++ ds ++ ",.cap=".toList ++ ds ++ "}".toList,
          rest)) := by
  obtain ⟨k, cap', hr⟩ := rounds_elems h hb rest hl (c := []) (cap := 128) (n := 0) (by omega)
    (by simp)
  refine ⟨k, dec es.length, dec_spec _, ?_⟩
  have hd := dec_length es.length 10 (by omega) hn
  have hp : "Slice_".toList.isPrefixOf ("Slice_".toList ++ t) = true :=
    List.isPrefixOf_iff_prefix.mpr ⟨t, rfl⟩
  have hdrop : ("Slice_".toList ++ t).drop 6 = t := List.drop_left' (by decide)
  have e1 : ("(".toList).length = 1 := by decide
  have e2 : ("){.data=(".toList).length = 9 := by decide
  have e3 : ("[]){".toList).length = 4 := by decide
  have e4 : ("},.len=".toList).length = 7 := by decide
  have e5 : (",.cap=".toList).length = 6 := by decide
  have e6 : ("}".toList).length = 1 := by decide
  have e7 : ("Slice_".toList).length = 6 := by decide
  unfold arrayLiteral
  have hs : start (ts ++ b :: rest) = ⟨ts ++ b :: rest, [], 128, 0⟩ := rfl
  rw [hs, hr]
  simp only [Res.ok_bind, joinAll_start, Nat.zero_add]
  unfold finish
  simp only [hp, if_true, hdrop]
  rw [if_pos (by omega), if_pos]
  · have : "(Slice_".toList = "(".toList ++ "Slice_".toList := by decide
    rw [this]
    simp
  · simp only [List.length_append, e1, e2, e3, e4, e5, e6, e7]
    omega

/-- C124, violated: braces are not counted.  A literal of one element with `k` fields in braces is a
slice of length `k`, over data of one element. -/
theorem braces_violated {ts : List Tok} {fields : List (List Tok)} (h : Elems ts fields)
    {o c b : Tok} (ho : o.kind = .other) (hc : c.kind = .other) (hb : b.kind = .rbracket)
    (rest : List Tok) (hl : ∀ e ∈ fields, (raw e).length ≤ 60) (hol : (raw [o]).length ≤ 30)
    (hcl : (raw [c]).length ≤ 30) {t : Str} (ht : t.length ≤ 35) (hn : fields.length < 10 ^ 10) :
    ∃ k text ds, Dec ds fields.length ∧
      arrayLiteral k ("Slice_".toList ++ t) ((o :: ts ++ [c]) ++ b :: rest) =
        .ok (some (text ++ "},.len=".toList ++ ds ++ ",.cap=".toList ++ ds ++ "}".toList, rest)) := by
  have snoc : ∀ {e : List Tok}, Nested e → Nested (e ++ [c]) := by
    intro e he
    induction he with
    | nil => exact .tok hc .nil
    | tok hk _ ih => exact .tok hk ih
    | group hk hi _ ih =>
      rw [List.append_assoc]
      exact .group hk hi ih
  have hlast : ∀ {ts : List Tok} {es : List (List Tok)}, Elems ts es →
      (∀ e ∈ es, (raw e).length ≤ 90) →
      ∃ es', Elems (ts ++ [c]) es' ∧ es'.length = es.length ∧ ∀ e ∈ es', (raw e).length ≤ 123 := by
    intro ts es h
    induction h with
    | one he h0 =>
      rename_i e
      intro hl
      refine ⟨[e ++ [c]], .one (snoc he) (by simp), rfl, ?_⟩
      intro x hx
      rw [List.mem_singleton.mp hx]
      have : raw (e ++ [c]) = raw e ++ raw [c] := by simp [raw]
      rw [this, List.length_append]
      have := hl e (by simp)
      omega
    | cons he h0 hk _ ih =>
      rename_i e r k es _
      intro hl
      obtain ⟨es', h1, h2, h3⟩ := ih (fun x hx => hl x (by simp [hx]))
      refine ⟨e :: es', ?_, by simp [h2], ?_⟩
      · rw [List.append_assoc, List.cons_append]
        exact .cons he h0 hk h1
      · intro x hx
        rcases List.mem_cons.mp hx with rfl | hx
        · have := hl x (by simp); omega
        · exact h3 x hx
  have hfirst : ∃ es', Elems (o :: ts) es' ∧ es'.length = fields.length ∧
      ∀ e ∈ es', (raw e).length ≤ 90 := by
    have ro : ∀ e, raw (o :: e) = raw [o] ++ raw e := by intro e; simp [raw]
    cases h with
    | one he h0 =>
      refine ⟨[o :: ts], .one (.tok ho he) (by simp), rfl, ?_⟩
      intro x hx
      rw [List.mem_singleton.mp hx, ro, List.length_append]
      have := hl ts (by simp)
      omega
    | cons he h0 hk hr =>
      rename_i e r k es
      refine ⟨(o :: e) :: es, ?_, by simp, ?_⟩
      · rw [← List.cons_append]
        exact .cons (.tok ho he) (by simp) hk hr
      · intro x hx
        rcases List.mem_cons.mp hx with rfl | hx
        · rw [ro, List.length_append]
          have := hl e (by simp)
          omega
        · have := hl x (by simp [hx]); omega
  obtain ⟨es1, h1, n1, l1⟩ := hfirst
  obtain ⟨es2, h2, n2, l2⟩ := hlast h1 l1
  obtain ⟨k, ds, hd, hr⟩ := array_literal_partial h2 hb rest l2 ht (by omega)
  refine ⟨k, _, ds, ?_, hr⟩
  rw [n2, n1] at hd
  exact hd

/-- What is left of the source of a literal whose bracket is not closed. -/
def Unclosed (ts : List Tok) : Prop :=
  ts = [] ∨ (∃ es, Elems ts es ∧ ∀ e ∈ es, (raw e).length ≤ 123) ∨
    ∃ k r es, ts = k :: r ∧ k.kind = .comma ∧ Elems r es ∧ ∀ e ∈ es, (raw e).length ≤ 123

theorem inner_end {i : List Tok} (hi : Inner i) (d : Int) (hd : 0 < d) : element i d = (i, []) := by
  have := inner_element hi d hd []
  rw [List.append_nil] at this
  rw [this]
  simp [element]

theorem nested_end {e : List Tok} (he : Nested e) : element e 0 = (e, []) := by
  induction he with
  | nil => rfl
  | tok hk _ ih =>
    rename_i u r' _
    rw [element, if_neg (by rw [hk]; decide)]
    have h1 : ¬ (u.kind = .lbracket ∨ u.kind = .lparen) := by rw [hk]; decide
    have h2 : ¬ (u.kind = .rbracket ∨ u.kind = .rparen) := by rw [hk]; decide
    simp only [if_neg h1, if_neg h2]
    rw [ih]
  | group hk hi _ ih =>
    rename_i o c i' r' _
    have h0 : ¬ ((0 : Int) = 0 ∧ (o.kind = .comma ∨ o.kind = .rbracket)) := by
      rcases hk with h | h <;> rw [h.1] <;> decide
    rw [List.cons_append, element, if_neg h0]
    have h1 : o.kind = .lbracket ∨ o.kind = .lparen := by
      rcases hk with h | h
      · exact .inl h.1
      · exact .inr h.1
    have h2 : ¬ (o.kind = .rbracket ∨ o.kind = .rparen) := by
      rcases hk with h | h <;> rw [h.1] <;> decide
    simp only [if_pos h1, if_neg h2]
    rw [inner_element hi (0 + 1) (by omega), element, if_neg (by omega)]
    have h3 : ¬ (c.kind = .lbracket ∨ c.kind = .lparen) := by
      rcases hk with h | h <;> rw [h.2] <;> decide
    have h4 : c.kind = .rbracket ∨ c.kind = .rparen := by
      rcases hk with h | h
      · exact .inl h.2
      · exact .inr h.2
    simp only [if_neg h3, if_pos h4]
    rw [show (0 : Int) + 1 - 1 = 0 by omega, ih]

theorem round_end {e : List Tok} (he : Nested e) {c : Str} {cap n : Nat} (hcap : 128 ≤ cap)
    (hc : c.length < cap) (hl : (raw e).length ≤ 123) :
    ∃ cap', 128 ≤ cap' ∧ (joined c n (raw e)).length < cap' ∧
      round ⟨e, c, cap, n⟩ = .ok (.more ⟨[], joined c n (raw e), cap', n + 1⟩) := by
  have hsep : (", ".toList).length = 2 := by decide
  have hj : (joined c n (raw e)).length ≤ c.length + 2 + (raw e).length := by
    unfold joined
    split <;> simp only [List.length_append, hsep] <;> omega
  have hadd : ∃ cap', 128 ≤ cap' ∧ (joined c n (raw e)).length < cap' ∧
      addElement ⟨e, c, cap, n⟩ = .ok ⟨[], joined c n (raw e), cap', n + 1⟩ := by
    unfold addElement
    simp only [nested_end he]
    refine ⟨if c.length + (raw e).length + 5 > cap then cap * 2 else cap, ?_, ?_, ?_⟩
    · split <;> omega
    · split <;> omega
    · rw [if_pos]
      · rfl
      · show (joined c n (raw e)).length < _
        split <;> omega
  obtain ⟨cap', a, b, c'⟩ := hadd
  refine ⟨cap', a, b, ?_⟩
  cases e with
  | nil =>
    unfold round
    simp only
    rw [c']
    rfl
  | cons u e =>
    obtain ⟨k1, k2⟩ := nested_head he
    unfold round
    simp only
    rw [if_neg k1, if_neg k2, c']
    rfl

theorem round_unclosed {s : LSt} (h : Unclosed s.toks) (hcap : 128 ≤ s.cap)
    (hc : s.c.length < s.cap) :
    ∃ s', round s = .ok (.more s') ∧ Unclosed s'.toks ∧ 128 ≤ s'.cap ∧ s'.c.length < s'.cap := by
  obtain ⟨ts, c, cap, n⟩ := s
  simp only at h hcap hc
  rcases h with rfl | ⟨es, he, hl⟩ | ⟨k, r, es, rfl, hk, he, hl⟩
  · obtain ⟨cap', h1, h2, h3⟩ := round_end .nil (n := n) hcap hc (by simp [raw])
    exact ⟨_, h3, .inl rfl, h1, h2⟩
  · cases he with
    | one hn h0 =>
      obtain ⟨cap', h1, h2, h3⟩ := round_end hn (n := n) hcap hc (hl _ (by simp))
      exact ⟨_, h3, .inl rfl, h1, h2⟩
    | cons hn h0 hk hr =>
      rename_i e r k es
      obtain ⟨cap', h1, h2, h3⟩ := round_element hn h0 (.inl hk) r (n := n) hcap hc (hl _ (by simp))
      exact ⟨_, h3, .inr (.inr ⟨k, r, es, rfl, hk, hr, fun x hx => hl x (by simp [hx])⟩), h1, h2⟩
  · refine ⟨⟨r, c, cap, n⟩, ?_, .inr (.inl ⟨es, he, hl⟩), hcap, hc⟩
    unfold round
    simp only
    rw [if_neg (by rw [hk]; decide), if_pos hk]

/-- C124, violated: a literal whose bracket is not closed keeps the compiler busy for ever: it does not
end in any number of rounds, nor with a message.  At the end of the source, each round adds an empty
element. -/
theorem unclosed_violated {ts : List Tok} (h : Unclosed ts) (st : Str) (k : Nat) :
    arrayLiteral k st ts = .ok none := by
  have key : ∀ k s, Unclosed s.toks → 128 ≤ s.cap → s.c.length < s.cap →
      ∃ s', rounds k s = .ok (.more s') := by
    intro k
    induction k with
    | zero => intro s _ _ _; exact ⟨s, rfl⟩
    | succ k ih =>
      intro s h1 h2 h3
      obtain ⟨s', e, a, b, c⟩ := round_unclosed h1 h2 h3
      obtain ⟨s'', e'⟩ := ih s' a b c
      refine ⟨s'', ?_⟩
      rw [rounds, e]
      exact e'
  obtain ⟨s', e⟩ := key k (start ts) h (by simp [start]) (by simp [start])
  unfold arrayLiteral
  rw [e]
  rfl

/-! ## C125: the memory of slice literals -/

/-- C125, violated: the block of a literal is doubled once for an element, so an element of 256
characters at the start overruns it. -/
theorem long_element_violated {e : List Tok} (he : Nested e) (h0 : e ≠ []) {t : Tok}
    (ht : t.kind = .comma ∨ t.kind = .rbracket) (r : List Tok) (hl : 256 ≤ (raw e).length) (k : Nat)
    (st : Str) : arrayLiteral (k + 1) st (e ++ t :: r) = .ub := by
  have hadd : addElement (start (e ++ t :: r)) = .ub := by
    unfold addElement start
    simp only [nested_element he ht r]
    rw [if_neg]
    simp only [Nat.lt_irrefl, List.nil_append, List.length_nil, gt_iff_lt, if_false]
    split <;> omega
  have hr : round (start (e ++ t :: r)) = .ub := by
    cases e with
    | nil => exact absurd rfl h0
    | cons u e =>
      obtain ⟨k1, k2⟩ := nested_head he
      unfold round
      simp only [start, List.cons_append]
      rw [if_neg k1, if_neg k2]
      unfold start at hadd
      rw [List.cons_append] at hadd
      rw [hadd]
      rfl
  unfold arrayLiteral
  rw [rounds, hr]
  rfl

/-- C125, violated: a type with a name of 64 characters overruns `rt`. -/
theorem long_type_violated (t : Str) (s : LSt) (ht : 64 ≤ t.length) :
    finish ("Slice_".toList ++ t) s = .ub := by
  have hp : "Slice_".toList.isPrefixOf ("Slice_".toList ++ t) = true :=
    List.isPrefixOf_iff_prefix.mpr ⟨t, rfl⟩
  have hdrop : ("Slice_".toList ++ t).drop 6 = t := List.drop_left' (by decide)
  unfold finish
  simp only [hp, if_true, hdrop]
  rw [if_neg (by omega)]

/-! ## Cases -/

section Cases

/-- A directory with one file of three bytes. -/
private def dir : Str → Option (List UInt8) := fun n =>
  if n = "a.bin".toList then some [0x41, 0, 0xff] else none

private def tok (k : Kind) (s : String) : Tok := ⟨[], s.toList, k⟩

/-- `1, f(2, 3)` -/
private def two : List Tok :=
  [tok .other "1", tok .comma ",", tok .other "f", tok .lparen "(", tok .other "2", tok .comma ",",
    tok .other "3", tok .rparen ")"]

private theorem two_elems : Elems two [[tok .other "1"], [tok .other "f", tok .lparen "(",
    tok .other "2", tok .comma ",", tok .other "3", tok .rparen ")"]] := by
  have h : Nested ([tok .other "f", tok .lparen "(", tok .other "2", tok .comma ",", tok .other "3",
      tok .rparen ")"]) :=
    .tok rfl (.group (o := tok .lparen "(") (c := tok .rparen ")")
      (i := [tok .other "2", tok .comma ",", tok .other "3"]) (r := []) (.inr ⟨rfl, rfl⟩)
      (.tok (.inl rfl) (.tok (.inr rfl) (.tok (.inl rfl) .nil))) .nil)
  exact .cons (e := [tok .other "1"]) (.tok rfl .nil) (by simp) rfl (.one h (by simp))

example : embed dir "a.bin".toList (.slice "u8".toList) =
    .ok "(Slice_u8){.data=(u8[]){0x41,0x00,0xFF,},.len=3,.cap=3}".toList := by decide +kernel

example : embed dir "a.bin".toList .none =
    .ok "(Slice_char){.data=(char[]){0x41,0x00,0xFF,},.len=3,.cap=3}".toList := by decide +kernel

example : embed dir "a.bin".toList (.other "string".toList) =
    .ok "(char*)\"\\x41\\x00\\xFF\"".toList := by decide +kernel

example : ∃ body ns, embed dir "a.bin".toList (.other "string".toList) =
      .ok ("(char*)\"".toList ++ body ++ ['"']) ∧ Chars body ns ∧ (cvalue ns).length ≤ 1 ∧
      ns.length = 3 :=
  embed_nul_violated dir (by decide) (a := [0x41]) (b := [0xff]) (by decide +kernel)

example : embed dir "a.bin".toList (.fixed "u8".toList 1024) =
    .ok "(u8[]){0x41,0x00,0xFF,}".toList := by decide +kernel

example : embed dir "a.bin".toList (.fixed "char".toList 3) =
    .ok "(char[]){\\x41\\x00\\xFF\"".toList := by decide +kernel

example : embed dir "b.bin".toList .none = .panic := by decide +kernel

example : isEmbed "embedding".toList = true := by decide +kernel

example : arrayLiteral 4 "Slice_int".toList (two ++ [tok .rbracket "]"]) =
    .ok (some ("(Slice_int){.data=(int[]){1, f(2,3)},.len=2,.cap=2}".toList, [])) := by decide +kernel

/-- `[Point { x: 1, y: 2 }]` is a slice of two. -/
example : arrayLiteral 4 "Slice_Point".toList
    [tok .other "Point", tok .other "{", tok .other "x:1", tok .comma ",", tok .other "y:2",
      tok .other "}", tok .rbracket "]"] =
    .ok (some ("(Slice_Point){.data=(Point[]){Point{x:1, y:2}},.len=2,.cap=2}".toList, [])) := by
  decide +kernel

example : ∃ k ds, Dec ds 2 ∧ arrayLiteral k ("Slice_".toList ++ "int".toList)
    (two ++ tok .rbracket "]" :: []) = .ok (some ("(Slice_".toList ++ "int".toList ++
      "){.data=(".toList ++ "int".toList ++ "[]){".toList ++ listed ["1".toList, "f(2,3)".toList] ++
      "},.len=".toList ++ ds ++ ",.cap=".toList ++ ds ++ "}".toList, [])) :=
  array_literal_partial two_elems rfl [] (by decide) (by decide) (by decide)

example (k : Nat) : arrayLiteral k "Slice_int".toList two = .ok none :=
  unclosed_violated (.inr (.inl ⟨_, two_elems, by decide⟩)) _ k

example (w : Str) (h : w.length = 256) : arrayLiteral 4 "Slice_int".toList
    ([⟨[], w, .other⟩] ++ tok .rbracket "]" :: []) = .ub :=
  long_element_violated (.tok rfl .nil) (List.cons_ne_nil _ _) (.inr rfl) []
    (by simp [raw, h]) 3 _

end Cases

/-- C124: the source of an element has its tokens with the blanks before them. -/
theorem raw_source (t : Tok) (ts : List Tok) : raw [] = [] ∧ raw (t :: ts) = t.lead ++ (t.text ++ raw ts) := by
  constructor
  · rfl
  · simp [raw]

end Verif.InitLit
