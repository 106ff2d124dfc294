import Verif.Literals.Lemmas

/-!
# Integer literals: property C33
-/

namespace Verif.Literals

open Spec
open Verif.Lexer (isDigit isXdigit identChar identStart)
open Verif.Str (Byte)

theorem head_suffix (f rest : List Byte) (hf : validSuffix f = true) (he : Ends rest) :
    let c := (f ++ rest).headD 0
    16 ≤ digVal c ∧ c ≠ 101 ∧ c ≠ 69 ∧ c ≠ 120 ∧ c ≠ 88 ∧ c ≠ 98 ∧ c ≠ 66 ∧ c ≠ 111 ∧ c ≠ 79 := by
  simp only [validSuffix, Bool.or_eq_true, decide_eq_true_eq, List.contains_iff_mem] at hf
  rcases hf with rfl | hf
  · cases rest with
    | nil => decide
    | cons c r =>
      have h := (he c r rfl).1
      exact byteRange (fun c => identChar c = false → 16 ≤ digVal c ∧ c ≠ 101 ∧ c ≠ 69 ∧ c ≠ 120 ∧
        c ≠ 88 ∧ c ≠ 98 ∧ c ≠ 66 ∧ c ≠ 111 ∧ c ≠ 79) (by decide +kernel) c h
  · obtain ⟨_, h2, _, _, h3, _, h4⟩ := suffix_shape f hf
    cases f with
    | nil => exact absurd rfl h2
    | cons c f => exact ⟨h3, h4⟩

theorem head_dot (f rest : List Byte) (hf : validSuffix f = true) (he : Ends rest)
    (h : (f ++ rest).headD 0 = 46) : f = [] ∧ ∃ r, rest = 46 :: 46 :: r := by
  simp only [validSuffix, Bool.or_eq_true, decide_eq_true_eq, List.contains_iff_mem] at hf
  rcases hf with rfl | hf
  · cases rest with
    | nil => exact absurd h (by decide)
    | cons c r =>
      obtain rfl : c = 46 := h
      obtain ⟨r', rfl⟩ := (he 46 r rfl).2 rfl
      exact ⟨rfl, r', rfl⟩
  · obtain ⟨_, h2, _, _, _, h3, _⟩ := suffix_shape f hf
    cases f with
    | nil => exact absurd rfl h2
    | cons c f => exact absurd h h3

theorem tail_stop (f rest : List Byte) (hf : validSuffix f = true) (he : Ends rest) (b : Nat)
    (hb : b ≤ 16) : ∀ c r, f ++ rest = c :: r → ¬ digVal c < b := by
  intro c r h
  have := (head_suffix f rest hf he).1
  rw [h] at this
  simp only [List.headD_cons] at this
  omega

/-- C33: the lexer takes a literal as one token -/
theorem int_token {b : Nat} {pre ds f rest : List Byte} {n : Nat} (hform : Form b pre)
    (hn : Numeral b ds n) (hne : ds ≠ []) (hf : validSuffix f = true) (he : Ends rest) :
    Lexer.number (pre ++ (ds ++ (f ++ rest))) = .ok (.int, (pre ++ (ds ++ f)).length) := by
  have hd := hn.val.1
  have hh := head_suffix f rest hf he
  have hs := tail_stop f rest hf he
  have hx : ∀ (x : Byte) (p : Byte → Bool) (b : Nat), b ≤ 16 → (∀ c, p c = decide (digVal c < b)) →
      (∀ c ∈ ds, digVal c < b) →
      Lexer.suffix (48 :: x :: (ds ++ (f ++ rest))) (2 + Lexer.span p (ds ++ (f ++ rest))) =
        .ok (2 + (ds.length + f.length)) := by
    intro x p b hb hp hd
    rw [span_stop (x := ds) (y := f ++ rest) (fun c hc => by rw [hp]; simpa using hd c hc)
      (fun c r h => by rw [hp]; simpa using hs b hb c r h)]
    have := suffix_len (48 :: x :: ds) f rest hf he
    rw [show 2 + ds.length = (48 :: x :: ds).length by simp; omega]
    rw [List.cons_append, List.cons_append] at this
    rw [this]
    simp; omega
  have hr1 : ∀ (x : Byte) (t : List Byte), Lexer.rd (48 :: x :: t) 0 = .ok 48 ∧
      Lexer.rd (48 :: x :: t) 1 = .ok x := by
    intro x t; simp [Lexer.rd]
  cases hform with
  | hex h =>
    rename_i x
    simp only [List.cons_append, List.nil_append]
    unfold Lexer.number
    simp only [(hr1 x _).1, (hr1 x _).2, Run.ok_bind, h, and_true, if_true, List.drop_succ_cons, List.drop_zero]
    rw [hx x _ 16 (by omega) isXdigit_val hd]
    simp; omega
  | bin h =>
    rename_i x
    simp only [List.cons_append, List.nil_append]
    unfold Lexer.number
    have : ¬ (x = 120 ∨ x = 88) := by rcases h with rfl | rfl <;> decide
    simp only [(hr1 x _).1, (hr1 x _).2, Run.ok_bind, this, h, and_true, and_false, if_true, if_false,
      List.drop_succ_cons, List.drop_zero]
    rw [hx x _ 2 (by omega) bin_val hd]
    simp; omega
  | oct h =>
    rename_i x
    simp only [List.cons_append, List.nil_append]
    unfold Lexer.number
    have h1 : ¬ (x = 120 ∨ x = 88) := by rcases h with rfl | rfl <;> decide
    have h2 : ¬ (x = 98 ∨ x = 66) := by rcases h with rfl | rfl <;> decide
    simp only [(hr1 x _).1, (hr1 x _).2, Run.ok_bind, h1, h2, h, and_true, and_false, if_true, if_false,
      List.drop_succ_cons, List.drop_zero]
    rw [hx x _ 8 (by omega) oct_val hd]
    simp; omega
  | dec =>
    simp only [List.nil_append]
    obtain ⟨b, hb, hbne⟩ : ∃ b, Lexer.rd (ds ++ (f ++ rest)) 1 = .ok b ∧
        ¬ (b = 120 ∨ b = 88) ∧ ¬ (b = 98 ∨ b = 66) ∧ ¬ (b = 111 ∨ b = 79) := by
      cases ds with
      | nil => exact absurd rfl hne
      | cons d ds =>
        cases ds with
        | nil =>
          refine ⟨_, rd_append' [d] (f ++ rest) 1 rfl, ?_⟩
          obtain ⟨_, _, _, h1, h2, h3, h4, h5, h6⟩ := hh
          simp only [not_or]
          exact ⟨⟨h1, h2⟩, ⟨h3, h4⟩, ⟨h5, h6⟩⟩
        | cons e ds =>
          refine ⟨e, by simp [Lexer.rd], ?_⟩
          obtain ⟨_, _, _, h1, h2, h3, h4, h5, h6⟩ := digit_ne e (hd e (by simp))
          simp only [not_or]
          exact ⟨⟨h1, h2⟩, ⟨h3, h4⟩, ⟨h5, h6⟩⟩
    obtain ⟨a, ha⟩ : ∃ a, Lexer.rd (ds ++ (f ++ rest)) 0 = .ok a := by
      cases ds with
      | nil => exact absurd rfl hne
      | cons d ds => exact ⟨d, by simp [Lexer.rd]⟩
    have hsp : Lexer.span isDigit (ds ++ (f ++ rest)) = ds.length :=
      span_stop (fun c hc => by rw [isDigit_val]; simpa using hd c hc)
        (fun c r h => by rw [isDigit_val]; simpa using hs 10 (by omega) c r h)
    have hfr : Lexer.fraction (ds ++ (f ++ rest)) ds.length = .ok (false, ds.length) := by
      unfold Lexer.fraction
      rw [rd_append]
      simp only [Run.ok_bind]
      split
      · rename_i h46
        obtain ⟨rfl, r, rfl⟩ := head_dot f rest hf he h46
        have : Lexer.rd (ds ++ ([] ++ 46 :: 46 :: r)) (ds.length + 1) = .ok 46 := by
          have := rd_append' (ds ++ [46]) (46 :: r) (ds.length + 1) (by simp)
          simpa using this
        rw [this]
        simp
      · rfl
    have hex : Lexer.exponent (ds ++ (f ++ rest)) (false, ds.length) = .ok (false, ds.length) := by
      unfold Lexer.exponent
      simp only [rd_append, Run.ok_bind]
      rw [if_neg (by rintro (h | h); exact hh.2.1 h; exact hh.2.2.1 h)]
      rfl
    unfold Lexer.number
    simp only [ha, hb, Run.ok_bind, hbne.1, hbne.2.1, hbne.2.2, and_false, if_false, hsp, hfr, hex,
      suffix_len ds f rest hf he]
    simp

/-- the number read from a literal -/
theorem parse_form {b : Nat} {pre ds f : List Byte} {n : Nat} (hform : Form b pre)
    (hn : Numeral b ds n) (hne : ds ≠ []) (hf : validSuffix f = true) :
    parseInt (pre ++ (ds ++ f)) = some (min n ullMax) := by
  have hd := hn.val.1
  have hv := hn.val.2
  have hE : Ends [] := fun c r h => by simp at h
  have hs := tail_stop f [] hf hE
  simp only [List.append_nil] at hs
  have hh := head_suffix f [] hf hE
  simp only [List.append_nil] at hh
  have key : ∀ t, skipHex b t = t → t = ds ++ f → b ≤ 16 → strtoull b t = (min n ullMax, f) := by
    intro t hk ht hb
    have hst := takeWhile_stop (p := fun c => decide (digVal c < b)) (x := ds) (y := f)
      (fun c hc => by simpa using hd c hc) (fun c r h => by simpa using hs b hb c r h)
    unfold strtoull
    simp only [hk]
    rw [ht, hst.1, if_neg hne, hst.2, hv]
  have skip : ∀ t, t = ds ++ f → skipHex b t = t := by
    intro t ht
    unfold skipHex
    split
    · rename_i a x c r
      split
      · rename_i hc
        obtain ⟨rfl, rfl, hx, _⟩ := hc
        exfalso
        cases ds with
        | nil => exact hne rfl
        | cons d ds =>
          simp only [List.cons_append, List.cons.injEq] at ht
          obtain ⟨_, ht⟩ := ht
          cases ds with
          | nil =>
            simp only [List.nil_append] at ht
            rw [← ht] at hh
            simp only [List.headD_cons] at hh
            rcases hx with h | h
            · exact hh.2.2.2.1 h
            · exact hh.2.2.2.2.1 h
          | cons e ds =>
            simp only [List.cons_append, List.cons.injEq] at ht
            have h16 := hd e (by simp)
            rw [← ht.1] at h16
            rcases hx with rfl | rfl <;> exact absurd h16 (by decide)
      · rfl
    · rfl
  have fin : ∀ t, strip t = (b, ds ++ f) → b ≤ 16 → parseInt t = some (min n ullMax) := by
    intro t ht hb
    unfold parseInt
    simp only [ht]
    rw [key _ (skip _ rfl) rfl hb]
    simp [hf]
  cases ds with
  | nil => exact absurd rfl hne
  | cons d ds =>
    cases hform with
    | hex h =>
      rename_i x
      refine fin _ ?_ (by omega)
      have : ¬ (x = 98 ∨ x = 66) := by rcases h with rfl | rfl <;> decide
      simp [strip, this, h]
    | bin h =>
      rename_i x
      refine fin _ ?_ (by omega)
      simp [strip, h]
    | oct h =>
      rename_i x
      refine fin _ ?_ (by omega)
      have h1 : ¬ (x = 120 ∨ x = 88) := by rcases h with rfl | rfl <;> decide
      have h2 : ¬ (x = 98 ∨ x = 66) := by rcases h with rfl | rfl <;> decide
      simp [strip, h1, h2, h]
    | dec =>
      refine fin _ ?_ (by omega)
      simp only [List.nil_append, List.cons_append]
      have hb : ∀ x r, ds ++ f = x :: r →
          ¬ (x = 98 ∨ x = 66) ∧ ¬ (x = 120 ∨ x = 88) ∧ ¬ (x = 111 ∨ x = 79) := by
        intro x r hx
        cases ds with
        | nil =>
          simp only [List.nil_append] at hx
          rw [hx] at hh
          simp only [List.headD_cons] at hh
          obtain ⟨_, _, _, h1, h2, h3, h4, h5, h6⟩ := hh
          simp only [not_or]
          exact ⟨⟨h3, h4⟩, ⟨h1, h2⟩, ⟨h5, h6⟩⟩
        | cons e ds =>
          simp only [List.cons_append, List.cons.injEq] at hx
          obtain ⟨_, _, _, h1, h2, h3, h4, h5, h6⟩ := digit_ne e (hd e (by simp))
          rw [hx.1] at h1 h2 h3 h4 h5 h6
          simp only [not_or]
          exact ⟨⟨h3, h4⟩, ⟨h1, h2⟩, ⟨h5, h6⟩⟩
      unfold strip
      split
      · rename_i a x c r heq
        simp only [List.cons.injEq] at heq
        have := hb x (c :: r) heq.2
        simp [this, heq]
      · rfl

/-- C33: a literal below 2^64 in any of the four notations, with or without a suffix, is one token and
has the value its digits denote.  Missing: larger ones. -/
theorem int_value_partial {b : Nat} {pre ds f rest : List Byte} {n : Nat} (hform : Form b pre)
    (hn : Numeral b ds n) (hne : ds ≠ []) (hf : validSuffix f = true) (he : Ends rest)
    (hlt : n < 2 ^ 64) :
    ∃ k, Lexer.number (pre ++ (ds ++ (f ++ rest))) = .ok (.int, k) ∧
      parseInt ((pre ++ (ds ++ (f ++ rest))).take k) = some n := by
  refine ⟨_, int_token hform hn hne hf he, ?_⟩
  have : (pre ++ (ds ++ (f ++ rest))).take (pre ++ (ds ++ f)).length = pre ++ (ds ++ f) := by
    rw [show pre ++ (ds ++ (f ++ rest)) = (pre ++ (ds ++ f)) ++ rest by simp, List.take_left]
  rw [this, parse_form hform hn hne hf, Nat.min_eq_left (by unfold ullMax; omega)]

/-- C33: a literal of 2^64 or more is accepted, and is 2^64 - 1. -/
theorem int_large_violated {b : Nat} {pre ds f : List Byte} {n : Nat} (hform : Form b pre)
    (hn : Numeral b ds n) (hne : ds ≠ []) (hf : validSuffix f = true) (hlt : 2 ^ 64 ≤ n) :
    parseInt (pre ++ (ds ++ f)) = some (2 ^ 64 - 1) ∧ 2 ^ 64 - 1 ≠ n := by
  rw [parse_form hform hn hne hf, Nat.min_eq_right (by unfold ullMax; omega)]
  exact ⟨rfl, by omega⟩

theorem strip_form (t : List Byte) : ∃ pre, Form (strip t).1 pre ∧ t = pre ++ (strip t).2 ∧
    (strip t).1 ≤ 16 ∧ ((strip t).1 = 10 → (strip t).2 = t) := by
  unfold strip
  split
  · rename_i a x d s
    split
    · rename_i hx
      obtain ⟨rfl, hx⟩ := hx
      exact ⟨[48, x], .bin hx, rfl, by omega, fun h => by simp at h⟩
    · split
      · rename_i hx
        obtain ⟨rfl, hx⟩ := hx
        exact ⟨[48, x], .hex hx, rfl, by omega, fun h => by simp at h⟩
      · split
        · rename_i hx
          obtain ⟨rfl, hx⟩ := hx
          exact ⟨[48, x], .oct hx, rfl, by omega, fun h => by simp at h⟩
        · exact ⟨[], .dec, rfl, by omega, fun _ => rfl⟩
  · exact ⟨[], .dec, rfl, by omega, fun _ => rfl⟩

/-- C33: whatever is accepted is a prefix, digits and a known suffix, with the value of the digits up
to 2^64 - 1.  Missing from the full claim: the digits may be absent after a prefix, and in base 16 a
second prefix may stand before them (both shown below). -/
theorem int_sound_partial (c : Byte) (r : List Byte) (v : Nat) (hc : isDigit c = true)
    (h : parseInt (c :: r) = some v) :
    ∃ b pre z ds f n, Form b pre ∧ c :: r = pre ++ (z ++ (ds ++ f)) ∧
      (z = [] ∨ b = 16 ∧ (z = [48, 120] ∨ z = [48, 88])) ∧ Numeral b ds n ∧ validSuffix f = true ∧
      v = min n (2 ^ 64 - 1) ∧ (b = 10 → ds ≠ []) := by
  have tw : ∀ (b : Nat) (t : List Byte), ∀ c ∈ t.takeWhile (fun c => decide (digVal c < b)), digVal c < b := by
    intro b t
    induction t with
    | nil => simp
    | cons d t ih =>
      intro c hc
      rw [List.takeWhile_cons] at hc
      split at hc
      · rename_i h1
        rcases List.mem_cons.mp hc with rfl | hc
        · simpa using h1
        · exact ih c hc
      · simp at hc
  have core : ∀ (b : Nat) (pre s : List Byte), b ≤ 16 → Form b pre → c :: r = pre ++ s →
      (b = 10 → ∃ d s', s = d :: s' ∧ digVal d < 10) →
      validSuffix (strtoull b s).2 = true → v = (strtoull b s).1 →
      ∃ b pre z ds f n, Form b pre ∧ c :: r = pre ++ (z ++ (ds ++ f)) ∧
      (z = [] ∨ b = 16 ∧ (z = [48, 120] ∨ z = [48, 88])) ∧ Numeral b ds n ∧ validSuffix f = true ∧
      v = min n (2 ^ 64 - 1) ∧ (b = 10 → ds ≠ []) := by
    intro b pre s hb hform hs h10 hv1 hv2
    have hz : ∃ z, s = z ++ skipHex b s ∧ (z = [] ∨ b = 16 ∧ (z = [48, 120] ∨ z = [48, 88])) := by
      unfold skipHex
      split
      · split
        · rename_i hc
          obtain ⟨h1, rfl, h2, _⟩ := hc
          rcases h2 with rfl | rfl
          · exact ⟨[48, 120], rfl, .inr ⟨h1, .inl rfl⟩⟩
          · exact ⟨[48, 88], rfl, .inr ⟨h1, .inr rfl⟩⟩
        · exact ⟨[], rfl, .inl rfl⟩
      · exact ⟨[], rfl, .inl rfl⟩
    obtain ⟨z, hz1, hz2⟩ := hz
    unfold strtoull at hv1 hv2
    simp only at hv1 hv2
    split at hv1
    · rename_i h0
      rw [if_pos h0] at hv2
      refine ⟨b, pre, [], [], s, 0, hform, by simpa using hs, .inl rfl, .nil, hv1, by simpa using hv2, ?_⟩
      intro hb10
      subst hb10
      obtain ⟨d, s', rfl, hd⟩ := h10 rfl
      have hsk : skipHex 10 (d :: s') = d :: s' := by
        unfold skipHex; split <;> simp
      rw [hsk, List.takeWhile_cons] at h0
      simp [hd] at h0
    · rename_i h0
      rw [if_neg h0] at hv2
      refine ⟨b, pre, z, _, _, _, hform, ?_, hz2, numeral_ofDigits (by omega) _ (tw b (skipHex b s)), hv1,
        hv2, fun _ => h0⟩
      rw [List.takeWhile_append_dropWhile, ← hz1, hs]
  have hd : digVal c < 10 := by simpa [isDigit_val] using hc
  have h10 : (10 : Nat) = 10 → ∃ d s', c :: r = d :: s' ∧ digVal d < 10 := fun _ => ⟨c, r, rfl, hd⟩
  unfold parseInt at h
  simp only at h
  split at h
  · rename_i hval
    obtain ⟨pre, h1, h2, h3, h4⟩ := strip_form (c :: r)
    exact core _ pre _ h3 h1 h2 (fun hb => by rw [h4 hb]; exact h10 rfl) hval (by simpa using h.symm)
  · simp at h

/-- C33: a prefix without any digit is accepted, as 0. -/
theorem int_no_digits_violated (x : Byte) (f : List Byte)
    (hx : x = 120 ∨ x = 88 ∨ x = 98 ∨ x = 66 ∨ x = 111 ∨ x = 79) (hf : f ∈ suffixes) :
    parseInt (48 :: x :: f) = some 0 := by
  have : ∀ x ∈ ([120, 88, 98, 66, 111, 79] : List Byte), ∀ f ∈ suffixes, parseInt (48 :: x :: f) = some 0 := by
    decide +kernel
  exact this x (by simpa using hx) f hf

/-- C33: a second `0x` is passed over. -/
theorem int_double_prefix_violated (x y : Byte) (ds : List Byte) (n : Nat) (hx : x = 120 ∨ x = 88)
    (hy : y = 120 ∨ y = 88) (hn : Numeral 16 ds n) (hne : ds ≠ []) (hlt : n < 2 ^ 64) :
    parseInt (48 :: x :: 48 :: y :: ds) = some n := by
  have hd := hn.val.1
  have h1 := parse_form (.hex hx) hn hne (f := []) rfl
  rw [Nat.min_eq_left (by unfold ullMax; omega), List.append_nil] at h1
  rw [← h1]
  cases ds with
  | nil => exact absurd rfl hne
  | cons d ds =>
    have hd0 : digVal d < 16 := hd d (by simp)
    have hxb : ¬ (x = 98 ∨ x = 66) := by rcases hx with rfl | rfl <;> decide
    have s1 : strip (48 :: x :: 48 :: y :: d :: ds) = (16, 48 :: y :: d :: ds) := by
      simp [strip, hxb, hx]
    have s2 : strip ([48, x] ++ d :: ds) = (16, d :: ds) := by simp [strip, hxb, hx]
    have k1 : skipHex 16 (48 :: y :: d :: ds) = d :: ds := by simp [skipHex, hy, hd0]
    have k2 : skipHex 16 (d :: ds) = d :: ds := by
      unfold skipHex
      split
      · rename_i a e c r heq
        simp only [List.cons.injEq] at heq
        have h16 := hd e (by simp [heq])
        have : ¬ (e = 120 ∨ e = 88) := by
          rintro (rfl | rfl) <;> exact absurd h16 (by decide)
        simp [this]
      · rfl
    unfold parseInt
    simp only [s1, s2]
    unfold strtoull
    simp only [k1, k2, List.takeWhile_cons, hd0, decide_true, if_true, List.cons_ne_nil, if_false]

/-! ## The text in C -/

theorem decF_spec : ∀ f n, n < f → Numeral 10 (decF f n) n ∧
    (n ≠ 0 → ∃ c ds, decF f n = c :: ds ∧ c ≠ 48) := by
  have g : ∀ d, d < 10 → d ≠ 0 → UInt8.ofNat (48 + d) ≠ 48 := by decide
  intro f
  induction f with
  | zero => intro n h; omega
  | succ f ih =>
    intro n h
    unfold decF
    split
    · rename_i hlt
      refine ⟨?_, fun h0 => ⟨_, [], rfl, g n hlt h0⟩⟩
      have := Numeral.snoc (b := 10) .nil hlt (.inl ⟨hlt, rfl⟩)
      simpa using this
    · rename_i hge
      obtain ⟨h1, h2⟩ := ih (n / 10) (by omega)
      refine ⟨?_, fun _ => ?_⟩
      · have := Numeral.snoc h1 (d := n % 10) (by omega) (.inl ⟨by omega, rfl⟩)
        rwa [show 10 * (n / 10) + n % 10 = n by omega] at this
      · obtain ⟨c, ds, h3, h4⟩ := h2 (by omega)
        exact ⟨c, ds ++ [UInt8.ofNat (48 + n % 10)], by rw [h3]; rfl, h4⟩

/-- C33: the text in C is a decimal constant with the same value, whatever the notation was. -/
theorem int_emit (v : Nat) (h : v < 2 ^ 64) : CInt (emitInt v) v := by
  by_cases h0 : v = 0
  · subst h0; exact .zero
  · obtain ⟨h1, h2⟩ := decF_spec (v + 1) v (by omega)
    obtain ⟨c, ds, h3, h4⟩ := h2 h0
    rw [h3] at h1
    unfold emitInt dec
    rw [h3]
    split
    · exact .ull h1 h4 h
    · exact .plain h1 h4 (by omega)

/-! ## Cases -/

section Cases

/-- `0x1Fu8;` -/
example : Form 16 [48, 120] ∧ Numeral 16 [49, 70] 31 ∧ validSuffix [117, 56] = true ∧ Ends [59] := by
  refine ⟨.hex (.inl rfl), ?_, by decide +kernel, ?_⟩
  · have := Numeral.snoc (b := 16) (.snoc (d := 1) (c := 49) .nil (by omega) (by decide)) (d := 15) (c := 70)
      (by omega) (by decide)
    simpa using this
  · intro c r h
    simp only [List.cons.injEq] at h
    rw [← h.1]
    exact ⟨by decide, fun h => absurd h (by decide)⟩

/-- `1..5` -/
example : Lexer.number [49, 46, 46, 53] = .ok (.int, 1) := by decide +kernel
/-- `1_000` is rejected -/
example : parseInt [49, 95, 48, 48, 48] = none := by decide +kernel
/-- `010` is ten -/
example : parseInt [48, 49, 48] = some 10 ∧ emitInt 10 = [49, 48] := by decide +kernel
/-- `18446744073709551616` -/
example : parseInt (bytes "18446744073709551616") = some 18446744073709551615 := by decide +kernel

end Cases

end Verif.Literals
