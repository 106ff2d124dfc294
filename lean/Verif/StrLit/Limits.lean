import Verif.StrLit.Props

/-!
# Strings: formats, unclosed holes, quotes in holes, buffers (C32, C55)
-/

namespace Verif.StrLit

open Spec
open Verif.Str (Byte)

theorem colon_skip (x y : List Byte) (hc : (58 : Byte) ∉ x) (hb : (123 : Byte) ∉ x) : colon 1 (x ++ y) = colon 1 y := by
  induction x with
  | nil => rfl
  | cons c x ih =>
    simp only [List.mem_cons, not_or] at hc hb
    have h := ih hc.2 hb.2
    cases x with
    | nil =>
      cases y with
      | nil => simp [colon, Ne.symm hc.1]
      | cons e r => simp [colon, Ne.symm hc.1, Ne.symm hb.1]
    | cons e r =>
      simp only [List.cons_append] at h ⊢
      simp only [colon, Ne.symm hc.1, Ne.symm hb.1, and_false, if_false]
      exact h

theorem colon_deep : ∀ (y : List Byte) (d : Nat), colon (d + 2) y = none
  | [], d => rfl
  | [c], d => by
    have : ¬ ((if c = 123 then d + 2 + 1 else d + 2) = 1) := by split <;> omega
    simp [colon, this]
  | c :: e :: r, d => by
    have : ¬ ((if c = 123 then d + 2 + 1 else d + 2) = 1) := by split <;> omega
    simp only [colon, this, false_and, if_false]
    split
    · exact colon_deep (e :: r) (d + 1)
    · exact colon_deep (e :: r) d

/-- C32: `{A::b}`: two colons are part of the expression, for all expressions in front and behind. -/
theorem scope_colons (x y : List Byte) (hc : (58 : Byte) ∉ x) (hb : (123 : Byte) ∉ x) : colon 1 (x ++ 58 :: 58 :: y) = colon 1 y := by
  rw [colon_skip x _ hc hb]
  rfl

/-- C32: `{x:f}`: everything behind the first single colon is the format. -/
theorem format (x y : List Byte) (hc : (58 : Byte) ∉ x) (hb : (123 : Byte) ∉ x) (hy : y.head? ≠ some 58) : colon 1 (x ++ 58 :: y) = some y := by
  rw [colon_skip x _ hc hb]
  cases y with
  | nil => simp [colon]
  | cons e r =>
    have : e ≠ 58 := by rintro rfl; exact hy rfl
    simp [colon, this]

/-- C32: colons behind an inner `{`, as in a struct literal, do not begin a format. -/
theorem nested_colon (x y : List Byte) (hc : (58 : Byte) ∉ x) (hb : (123 : Byte) ∉ x) : colon 1 (x ++ 123 :: y) = none := by
  rw [colon_skip x _ hc hb]
  cases y with
  | nil => simp [colon]
  | cons e r =>
    have := colon_deep (e :: r) 0
    simp only [colon]
    simpa using this

/-- C32: a hole that is not closed is an error, for all texts. -/
theorem unclosed_error (x src : List Byte) (h1 : (123 : Byte) ∉ x) (h2 : (125 : Byte) ∉ x) (h3 : (123 : Byte) ∉ src) (h4 : (125 : Byte) ∉ src) :
    fstring (x ++ 123 :: src) = none := by
  have hne : x ++ 123 :: src ≠ [] := by simp
  have hd : cut2 (x ++ 123 :: src) = none := cut2_none _ (by simp [h2, h4])
  unfold fstring
  rw [segments, if_neg hne, hd, cut_append x src h1]
  simp only [Option.filter_none]
  split
  · rename_i r' ; simp at h3
  · rw [cut_none src h4]

theorem unquote_step (a b : List Byte) (h : (92 : Byte) ∉ a) : unquote (a ++ 92 :: 34 :: b) = a ++ 34 :: unquote b := by
  induction a with
  | nil => simp [unquote]
  | cons c a ih =>
    simp only [List.mem_cons, not_or] at h
    have ih := ih h.2
    cases a with
    | nil => simp [unquote, Ne.symm h.1]
    | cons e r =>
      simp only [List.cons_append] at ih ⊢
      simp only [unquote, Ne.symm h.1, false_and, if_false, ih]

/-- C55: quotes written `\"` in a hole are quotes of its expression: `"{f(\"a\")}"` calls `f("a")`, for all texts around and inside. -/
theorem print_quotes (x a s b : List Byte) (hx : (123 : Byte) ∉ x) (h1 : (123 : Byte) ∉ a ++ s ++ b) (h2 : (125 : Byte) ∉ a ++ s ++ b)
    (h3 : (92 : Byte) ∉ a ++ s ++ b) :
    printParts (x ++ 123 :: (a ++ [92, 34] ++ s ++ [92, 34] ++ b ++ [125])) = .ok (seg1 x ++ [.hole (a ++ [34] ++ s ++ [34] ++ b) none]) := by
  simp only [List.mem_append, not_or] at h1 h2 h3
  have hne : x ++ 123 :: (a ++ [92, 34] ++ s ++ [92, 34] ++ b ++ [125]) ≠ [] := by simp
  have hc : closing 1 (a ++ [92, 34] ++ s ++ [92, 34] ++ b ++ [125]) = some (a ++ [92, 34] ++ s ++ [92, 34] ++ b, []) :=
    closing_src _ [] (by simp [h1]) (by simp [h2])
  have hu : unquote (a ++ [92, 34] ++ s ++ [92, 34] ++ b) = a ++ [34] ++ s ++ [34] ++ b := by
    have e : a ++ [92, 34] ++ s ++ [92, 34] ++ b = a ++ 92 :: 34 :: (s ++ 92 :: 34 :: b) := by simp
    rw [e, unquote_step _ _ h3.1.1, unquote_step _ _ h3.1.2, unquote_id b h3.2]
    simp
  unfold printParts
  rw [printSegments, if_neg hne, cut_append x _ hx]
  simp only [hc, hu]
  have hlen : (x ++ 123 :: (a ++ [92, 34] ++ s ++ [92, 34] ++ b ++ [125])).length = (x ++ (a ++ [92, 34] ++ s ++ [92, 34] ++ b ++ [125])).length + 1 := by
    simp only [List.length_append, List.length_cons]; omega
  rw [hlen]
  simp only [printSegments, if_true]

/-- C55: bytes that are escaped count twice: 4071 tabs, quotes, newlines or carriage returns overflow the buffer of the compiler. -/
theorem print_escaped_violated (c : Byte) (hc : c = 9 ∨ c = 34 ∨ c = 10 ∨ c = 13) (n : Nat) (hn : 4071 ≤ n) (code : List Byte → Nat) (nl : Bool) :
    printGen code nl (List.replicate n c) = .ub := by
  have h92 : c ≠ 92 := by rcases hc with rfl | rfl | rfl | rfl <;> decide
  have h123 : (123 : Byte) ≠ c := by rcases hc with rfl | rfl | rfl | rfl <;> decide
  have h2 : (escape1 c).length = 2 := by rcases hc with rfl | rfl | rfl | rfl <;> rfl
  have hl : ∀ m, (escape (List.replicate m c)).length = 2 * m := by
    intro m
    induction m with
    | zero => rfl
    | succ m ih =>
      rw [List.replicate_succ, escape_cons h92, List.length_append, ih, h2]
      omega
  obtain ⟨k, rfl⟩ : ∃ k, n = k + 1 := ⟨n - 1, by omega⟩
  have hp : printParts (List.replicate (k + 1) c) = .ok [.text (List.replicate (k + 1) c)] := by
    unfold printParts
    have hm : (123 : Byte) ∉ List.replicate (k + 1) c := by
      intro hm
      exact h123 (List.mem_replicate.1 hm).2
    have hne : List.replicate (k + 1) c ≠ [] := by simp [List.replicate_succ]
    simp only [printSegments, if_neg hne, cut_none _ hm]
  simp only [printGen, hp, Run.ok_bind, genLen, capGen, hl]
  cases nl <;> simp only [Bool.false_eq_true, if_false, if_true] <;> rw [if_neg (by omega)]

/-- `{A::b:x}` has the format `x`, `{P{a:1}` has none -/
example : colon 1 [65, 58, 58, 98, 58, 120] = some [120] ∧ colon 1 [80, 123, 97, 58, 49] = none := by decide +kernel

end Verif.StrLit
