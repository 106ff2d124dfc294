import Verif.Literals.Model

/-!
# Number literals: lemmas
-/

namespace Verif.Literals

open Spec
open Verif.Lexer (isDigit isXdigit identChar identStart)
open Verif.Str (Byte)

theorem byteRange (P : Byte → Prop) (h : ∀ n : Nat, n < 256 → P (UInt8.ofNat n)) (c : Byte) : P c := by
  have := h c.toNat c.toNat_lt
  simpa using this

instance (d c) : Decidable (Glyph d c) := by unfold Glyph; infer_instance

theorem glyph_val {d : Nat} {c : Byte} (h : Glyph d c) : digVal c = d := by
  have h1 : ∀ d, d < 10 → digVal (UInt8.ofNat (48 + d)) = d := by decide
  have h2 : ∀ d, d < 36 → 10 ≤ d → digVal (UInt8.ofNat (87 + d)) = d ∧ digVal (UInt8.ofNat (55 + d)) = d := by
    decide
  rcases h with ⟨h, rfl⟩ | ⟨ha, hb, h⟩
  · exact h1 d h
  · rcases h with rfl | rfl
    · exact (h2 d hb ha).1
    · exact (h2 d hb ha).2

theorem glyph_ofVal {c : Byte} (h : digVal c < 36) : Glyph (digVal c) c := by
  have : ∀ n : Nat, n < 256 → digVal (UInt8.ofNat n) < 36 → Glyph (digVal (UInt8.ofNat n)) (UInt8.ofNat n) := by
    decide +kernel
  exact byteRange (fun c => digVal c < 36 → Glyph (digVal c) c) this c h

theorem isDigit_val (c : Byte) : isDigit c = decide (digVal c < 10) :=
  byteRange (fun c => isDigit c = decide (digVal c < 10)) (by decide +kernel) c

theorem isXdigit_val (c : Byte) : isXdigit c = decide (digVal c < 16) :=
  byteRange (fun c => isXdigit c = decide (digVal c < 16)) (by decide +kernel) c

theorem bin_val (c : Byte) : (c == 48 || c == 49) = decide (digVal c < 2) :=
  byteRange (fun c => (c == 48 || c == 49) = decide (digVal c < 2)) (by decide +kernel) c

theorem oct_val (c : Byte) : (48 ≤ c && c ≤ 55) = decide (digVal c < 8) :=
  byteRange (fun c => (decide (48 ≤ c) && decide (c ≤ 55)) = decide (digVal c < 8)) (by decide +kernel) c

theorem digit_ident (c : Byte) (h : digVal c < 36) : identChar c = true :=
  byteRange (fun c => digVal c < 36 → identChar c = true) (by decide +kernel) c h

theorem digit_ne (c : Byte) (h : digVal c < 10) :
    c ≠ 46 ∧ c ≠ 101 ∧ c ≠ 69 ∧ c ≠ 120 ∧ c ≠ 88 ∧ c ≠ 98 ∧ c ≠ 66 ∧ c ≠ 111 ∧ c ≠ 79 :=
  byteRange (fun c => digVal c < 10 →
    c ≠ 46 ∧ c ≠ 101 ∧ c ≠ 69 ∧ c ≠ 120 ∧ c ≠ 88 ∧ c ≠ 98 ∧ c ≠ 66 ∧ c ≠ 111 ∧ c ≠ 79)
    (by decide +kernel) c h

/-! ## Numerals -/

theorem Spec.Numeral.val {b n : Nat} {ds : List Byte} (h : Numeral b ds n) :
    (∀ c ∈ ds, digVal c < b) ∧ valOf b ds = n := by
  induction h with
  | nil => simp [valOf]
  | snoc _ hd hg ih =>
    have := glyph_val hg
    refine ⟨?_, ?_⟩
    · intro c hc
      rcases List.mem_append.mp hc with hc | hc
      · exact ih.1 c hc
      · obtain rfl : c = _ := by simpa using hc
        omega
    · have h2 := ih.2
      unfold valOf at h2 ⊢
      rw [List.foldl_append, h2]
      simp [this]

theorem numeral_fold {b : Nat} (hb : b ≤ 36) (ys : List Byte) : ∀ {xs n}, Numeral b xs n →
    (∀ c ∈ ys, digVal c < b) → Numeral b (xs ++ ys) (ys.foldl (fun n c => b * n + digVal c) n) := by
  induction ys with
  | nil => intro xs n h _; simpa using h
  | cons c ys ih =>
    intro xs n h hc
    have h1 : digVal c < b := hc c (by simp)
    have := ih (.snoc h h1 (glyph_ofVal (by omega))) fun d hd => hc d (by simp [hd])
    simpa using this

theorem numeral_ofDigits {b : Nat} (hb : b ≤ 36) (ds : List Byte) (h : ∀ c ∈ ds, digVal c < b) :
    Numeral b ds (valOf b ds) := by
  simpa [valOf] using numeral_fold hb ds .nil h

/-! ## Texts -/

theorem takeWhile_stop {p : Byte → Bool} {x y : List Byte} (hx : ∀ c ∈ x, p c = true)
    (hy : ∀ c r, y = c :: r → p c = false) : (x ++ y).takeWhile p = x ∧ (x ++ y).dropWhile p = y := by
  induction x with
  | nil =>
    cases y with
    | nil => simp
    | cons c r => simp [hy c r rfl]
  | cons c x ih =>
    have h1 := hx c (by simp)
    have h2 := ih fun d hd => hx d (by simp [hd])
    simp [h1, h2]

theorem span_stop {p : Byte → Bool} {x y : List Byte} (hx : ∀ c ∈ x, p c = true)
    (hy : ∀ c r, y = c :: r → p c = false) : Lexer.span p (x ++ y) = x.length := by
  induction x with
  | nil =>
    cases y with
    | nil => rfl
    | cons c r => simp [Lexer.span, hy c r rfl]
  | cons c x ih =>
    have h1 := hx c (by simp)
    have h2 := ih fun d hd => hx d (by simp [hd])
    simp [Lexer.span, h1, h2]

theorem span_take (p : Byte → Bool) (s : List Byte) :
    s.take (Lexer.span p s) = s.takeWhile p ∧ s.drop (Lexer.span p s) = s.dropWhile p := by
  induction s with
  | nil => simp [Lexer.span]
  | cons c s ih =>
    by_cases h : p c
    · simp [Lexer.span, h, ih]
    · simp [Lexer.span, h]

theorem rd_append (x y : List Byte) : Lexer.rd (x ++ y) x.length = .ok (y.headD 0) := by
  unfold Lexer.rd
  cases y with
  | nil => simp
  | cons c r =>
    rw [if_pos (by simp)]
    simp [List.getD]

theorem rd_append' (x y : List Byte) (n : Nat) (h : n = x.length) :
    Lexer.rd (x ++ y) n = .ok (y.headD 0) := by
  rw [h, rd_append]

/-! ## Suffixes -/

theorem suffix_shape : ∀ f ∈ suffixes, (f.all identChar = true ∧ f ≠ [] ∧ identStart (f.headD 0) = true ∧
    99 ≤ digVal (f.headD 0) + 99 ∧ 16 ≤ digVal (f.headD 0) ∧ f.headD 0 ≠ 46 ∧ f.headD 0 ≠ 101 ∧
    f.headD 0 ≠ 69 ∧ f.headD 0 ≠ 120 ∧ f.headD 0 ≠ 88 ∧ f.headD 0 ≠ 98 ∧ f.headD 0 ≠ 66 ∧
    f.headD 0 ≠ 111 ∧ f.headD 0 ≠ 79) := by
  decide +kernel

theorem suffix_len (x f rest : List Byte) (hf : validSuffix f = true) (he : Ends rest) :
    Lexer.suffix (x ++ (f ++ rest)) x.length = .ok (x.length + f.length) := by
  unfold Lexer.suffix
  rw [rd_append]
  simp only [Run.ok_bind]
  have hrest : ∀ c r, rest = c :: r → identChar c = false := fun c r h => (he c r h).1
  simp only [validSuffix, Bool.or_eq_true, decide_eq_true_eq, List.contains_iff_mem] at hf
  rcases hf with rfl | hf
  · cases rest with
    | nil => simp [identStart, Lexer.isAlpha]
    | cons c r =>
      have h1 := hrest c r rfl
      have : identStart c = false := by
        unfold identChar at h1
        unfold identStart
        simp only [Bool.or_eq_false_iff] at h1 ⊢
        exact ⟨h1.1.1, h1.2⟩
      simp [this]
  · obtain ⟨h1, h2, h3, _⟩ := suffix_shape f hf
    cases f with
    | nil => exact absurd rfl h2
    | cons c f =>
      simp only [List.headD_cons] at h3
      simp only [List.cons_append, List.headD_cons, h3, if_true, List.drop_left]
      have := span_stop (p := identChar) (x := c :: f) (y := rest)
        (by simpa [List.all_eq_true] using h1) hrest
      rw [List.cons_append] at this
      rw [this]
      rfl

end Verif.Literals
