import Verif.Literals.Props

/-!
# Suffixes of integer literals

Which suffixes are taken, told by the grammar of C and by the names of Zen C's integer types instead of
the table of the compiler.
-/

namespace Verif.Literals

open Verif.Str (Byte)
open Spec

namespace Spec

/-- `u` or `U` -/
def uPart (s : List Byte) : Prop := s = [117] ∨ s = [85]

/-- `l`, `L`, `ll` or `LL` -/
def lPart (s : List Byte) : Prop := s = [108] ∨ s = [76] ∨ s = [108, 108] ∨ s = [76, 76]

/-- C11 6.4.4.1: integer-suffix -/
inductive CSuffix : List Byte → Prop
  | u {s} : uPart s → CSuffix s
  | l {s} : lPart s → CSuffix s
  | ul {s t} : uPart s → lPart t → CSuffix (s ++ t)
  | lu {s t} : uPart s → lPart t → CSuffix (t ++ s)

/-- `i` or `u` and a width: 8, 16, 32, 64 or `size` -/
inductive TypeSuffix : List Byte → Prop
  | mk {c : Byte} {w} : c = 105 ∨ c = 117 →
      w = [56] ∨ w = [49, 54] ∨ w = [51, 50] ∨ w = [54, 52] ∨ w = [115, 105, 122, 101] → TypeSuffix (c :: w)

end Spec

/-- Every name of an integer type is a suffix, and so is every suffix of C except `LLU`. -/
theorem suffix_taken (f : List Byte) (h : f = [] ∨ TypeSuffix f ∨ CSuffix f ∧ f ≠ [76, 76, 85]) :
    validSuffix f = true := by
  rcases h with rfl | h | ⟨h, hne⟩
  · rfl
  · obtain ⟨hc, hw⟩ := h
    rcases hc with rfl | rfl <;> rcases hw with rfl | rfl | rfl | rfl | rfl <;> decide +kernel
  · cases h with
    | u h => rcases h with rfl | rfl <;> decide +kernel
    | l h => rcases h with rfl | rfl | rfl | rfl <;> decide +kernel
    | ul h h' => rcases h with rfl | rfl <;> rcases h' with rfl | rfl | rfl | rfl <;> decide +kernel
    | lu h h' =>
      rcases h with rfl | rfl <;> rcases h' with rfl | rfl | rfl | rfl <;>
        first | decide +kernel | exact absurd rfl hne

/-- Nothing else is a suffix, except `lLu`. -/
theorem suffix_only (f : List Byte) (h : validSuffix f = true) :
    f = [] ∨ TypeSuffix f ∨ CSuffix f ∨ f = [108, 76, 117] := by
  have hm : f = [] ∨ f ∈ suffixes := by
    unfold validSuffix at h
    simpa using h
  rcases hm with rfl | hm
  · exact .inl rfl
  have key : ∀ f ∈ suffixes, (f = [108, 76, 117]) ∨
      (∃ c ∈ ([105, 117] : List Byte), ∃ w ∈ ([[56], [49, 54], [51, 50], [54, 52], [115, 105, 122, 101]] : List (List Byte)), f = c :: w) ∨
      f ∈ ([[117], [85]] : List (List Byte)) ∨ f ∈ ([[108], [76], [108, 108], [76, 76]] : List (List Byte)) ∨
      (∃ s ∈ ([[117], [85]] : List (List Byte)), ∃ t ∈ ([[108], [76], [108, 108], [76, 76]] : List (List Byte)),
        f = s ++ t ∨ f = t ++ s) := by
    decide +kernel
  rcases key f hm with h | ⟨c, hc, w, hw, rfl⟩ | h | h | ⟨s, hs, t, ht, h⟩
  · exact .inr (.inr (.inr h))
  · exact .inr (.inl (.mk (by simpa using hc) (by simpa using hw)))
  · exact .inr (.inr (.inl (.u (by simpa [uPart] using h))))
  · exact .inr (.inr (.inl (.l (by simpa [lPart] using h))))
  · have h1 : uPart s := by simpa [uPart] using hs
    have h2 : lPart t := by simpa [lPart] using ht
    rcases h with rfl | rfl
    · exact .inr (.inr (.inl (.ul h1 h2)))
    · exact .inr (.inr (.inl (.lu h1 h2)))

/-- C33: in any of the four notations a literal below 2^64 with the name of an integer type, or a suffix
of C, is one token with the value of its digits.  Missing: `LLU`, literals of 2^64 and more. -/
theorem int_suffix_partial {b : Nat} {pre ds f rest : List Byte} {n : Nat} (hform : Form b pre)
    (hn : Numeral b ds n) (hne : ds ≠ []) (hf : f = [] ∨ TypeSuffix f ∨ CSuffix f ∧ f ≠ [76, 76, 85])
    (he : Ends rest) (hlt : n < 2 ^ 64) :
    ∃ k, Lexer.number (pre ++ (ds ++ (f ++ rest))) = .ok (.int, k) ∧
      parseInt ((pre ++ (ds ++ (f ++ rest))).take k) = some n :=
  int_value_partial hform hn hne (suffix_taken f hf) he hlt

/-- `255u16` before a semicolon -/
example : ∃ k, Lexer.number ([] ++ (bytes "255" ++ (bytes "u16" ++ [59]))) = .ok (.int, k) ∧
    parseInt (([] ++ (bytes "255" ++ (bytes "u16" ++ [59]))).take k) = some 255 :=
  int_suffix_partial .dec
    (.snoc (d := 5) (.snoc (d := 5) (.snoc (d := 2) .nil (by decide) (.inl ⟨by decide, rfl⟩)) (by decide)
      (.inl ⟨by decide, rfl⟩)) (by decide) (.inl ⟨by decide, rfl⟩))
    (by decide) (.inr (.inl (.mk (.inr rfl) (.inr (.inl rfl)))))
    (fun c r h => by
      simp only [List.cons.injEq] at h
      obtain ⟨rfl, rfl⟩ := h
      exact ⟨by decide, fun h => absurd h (by decide)⟩) (by decide)

/-- C33: every decimal literal with the suffix `LLU`, which C has, is rejected. -/
theorem int_llu_violated (ds : List Byte) (n : Nat) (hn : Numeral 10 ds n) (hne : ds ≠ []) :
    CSuffix [76, 76, 85] ∧ parseInt (ds ++ [76, 76, 85]) = none := by
  refine ⟨.lu (s := [85]) (t := [76, 76]) (.inr rfl) (.inr (.inr (.inr rfl))), ?_⟩
  have hd := hn.val.1
  have hst := takeWhile_stop (p := fun c => decide (digVal c < 10)) (x := ds) (y := [76, 76, 85])
    (fun c hc => by simpa using hd c hc) (fun c r h => by
      simp only [List.cons.injEq] at h
      rw [← h.1]; decide)
  have hstrip : strip (ds ++ [76, 76, 85]) = (10, ds ++ [76, 76, 85]) := by
    cases ds with
    | nil => exact absurd rfl hne
    | cons d ds =>
      have hb : ∀ x r, ds ++ [76, 76, 85] = x :: r →
          ¬ (x = 98 ∨ x = 66) ∧ ¬ (x = 120 ∨ x = 88) ∧ ¬ (x = 111 ∨ x = 79) := by
        intro x r hx
        cases ds with
        | nil =>
          simp only [List.nil_append, List.cons.injEq] at hx
          rw [← hx.1]; decide
        | cons e ds =>
          simp only [List.cons_append, List.cons.injEq] at hx
          obtain ⟨_, _, _, h1, h2, h3, h4, h5, h6⟩ := digit_ne e (hd e (by simp))
          rw [hx.1] at h1 h2 h3 h4 h5 h6
          simp only [not_or]
          exact ⟨⟨h3, h4⟩, ⟨h1, h2⟩, ⟨h5, h6⟩⟩
      unfold strip
      split
      · rename_i a x c r heq
        simp only [List.cons_append, List.cons.injEq] at heq
        have := hb x (c :: r) heq.2
        simp [this, heq]
      · rfl
  have hk : skipHex 10 (ds ++ [76, 76, 85]) = ds ++ [76, 76, 85] := by
    unfold skipHex; split <;> simp
  have hr : strtoull 10 (ds ++ [76, 76, 85]) = (min (valOf 10 ds) ullMax, [76, 76, 85]) := by
    unfold strtoull
    simp only [hk]
    rw [hst.1, if_neg hne, hst.2]
  unfold parseInt
  simp only [hstrip, hr]
  rw [if_neg (by decide +kernel)]

/-- `7LLU` -/
example : parseInt (bytes "7LLU") = none :=
  (int_llu_violated [55] 7 (.snoc (d := 7) .nil (by decide) (.inl ⟨by decide, rfl⟩)) (by decide)).2

/-- C33: `lLu` is taken although C has no such suffix. -/
theorem int_llu_mixed_violated {b : Nat} {pre ds : List Byte} {n : Nat} (hform : Form b pre)
    (hn : Numeral b ds n) (hne : ds ≠ []) (hlt : n < 2 ^ 64) :
    parseInt (pre ++ (ds ++ [108, 76, 117])) = some n ∧ ¬ CSuffix [108, 76, 117] := by
  refine ⟨?_, ?_⟩
  · rw [parse_form hform hn hne (by decide +kernel), Nat.min_eq_left (by unfold ullMax; omega)]
  · generalize hg : ([108, 76, 117] : List Byte) = g
    intro h
    cases h with
    | u h => rcases h with rfl | rfl <;> revert hg <;> decide
    | l h => rcases h with rfl | rfl | rfl | rfl <;> revert hg <;> decide
    | ul h h' => rcases h with rfl | rfl <;> rcases h' with rfl | rfl | rfl | rfl <;> revert hg <;> decide
    | lu h h' => rcases h with rfl | rfl <;> rcases h' with rfl | rfl | rfl | rfl <;> revert hg <;> decide

end Verif.Literals
