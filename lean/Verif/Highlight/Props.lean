import Verif.Highlight.Model

/-!
# C156, C157: the line that is shown, and the brackets that are marked
-/

namespace Verif.Highlight
open Verif.Forth Verif.Highlight.Spec

/-! ## brackets -/

theorem Spec.Balanced.append {o c : Char} {s t : Str} (hs : Balanced o c s) (ht : Balanced o c t) : Balanced o c (s ++ t) := by
  induction hs with
  | nil => exact ht
  | other h1 h2 _ ih => exact .other h1 h2 ih
  | @nest a b ha _ _ ih2 =>
      have := Balanced.nest ha ih2
      simpa using this

theorem Spec.Balanced.reverse {o c : Char} {s : Str} (hs : Balanced o c s) : Balanced c o s.reverse := by
  induction hs with
  | nil => exact .nil
  | other h1 h2 _ ih => rw [List.reverse_cons]; exact ih.append (.other h2 h1 .nil)
  | @nest a b _ _ iha ihb =>
      have := ihb.append (Balanced.nest iha .nil)
      simpa using this

theorem seek_balanced {o c : Char} (hoc : o ≠ c) {m : Str} (hm : Balanced o c m) :
    ∀ (n : Nat) (t : Str), seek o c (n + 1) (m ++ t) = (seek o c (n + 1) t).map (· + m.length) := by
  induction hm with
  | nil => intro n t; simp
  | other h1 h2 _ ih =>
      intro n t
      rw [List.cons_append, seek, if_neg h1, if_neg h2, ih, Option.map_map]
      congr 1
  | @nest a b _ _ iha ihb =>
      intro n t
      have e : o :: a ++ c :: b ++ t = o :: (a ++ c :: (b ++ t)) := by simp
      rw [e, seek, if_pos rfl, iha, seek, if_neg (Ne.symm hoc), if_pos rfl, if_neg (by omega), Nat.add_sub_cancel, ihb]
      simp only [Option.map_map]
      congr 1
      funext k
      simp only [Function.comp, List.length_append, List.length_cons]
      omega

/-- closing `n` brackets that are open -/
inductive Closing (o c : Char) : Nat → Str → Prop
  | zero {m} : Balanced o c m → Closing o c 0 m
  | succ {n a m} : Balanced o c a → Closing o c n m → Closing o c (n + 1) (a ++ c :: m)

theorem Closing.prepend {o c : Char} {n : Nat} {b m : Str} (hb : Balanced o c b) (h : Closing o c n m) :
    Closing o c n (b ++ m) := by
  cases h with
  | zero h => exact .zero (hb.append h)
  | succ ha h => rw [← List.append_assoc]; exact .succ (hb.append ha) h

theorem seek_some {o c : Char} : ∀ (s : Str) (n k : Nat), seek o c (n + 1) s = some k →
    ∃ m b, s = m ++ c :: b ∧ m.length = k ∧ Closing o c n m
  | [], n, k, h => by rw [seek] at h; exact absurd h (by simp)
  | d :: s, n, k, h => by
      rw [seek] at h
      by_cases h1 : d = o
      · rw [if_pos h1, Option.map_eq_some_iff] at h
        obtain ⟨k', h, rfl⟩ := h
        obtain ⟨m, b, rfl, rfl, hm⟩ := seek_some s (n + 1) k' h
        refine ⟨d :: m, b, by simp, by simp, ?_⟩
        cases hm with
        | @succ _ a m' ha hm =>
            rw [h1]
            have := Closing.prepend (Balanced.nest ha .nil) hm
            simpa using this
      · rw [if_neg h1] at h
        by_cases h2 : d = c
        · rw [if_pos h2] at h
          cases n with
          | zero =>
              rw [if_pos rfl] at h
              cases h
              exact ⟨[], s, by rw [h2]; rfl, rfl, .zero .nil⟩
          | succ n =>
              rw [if_neg (by omega), Nat.add_sub_cancel, Option.map_eq_some_iff] at h
              obtain ⟨k', h, rfl⟩ := h
              obtain ⟨m, b, rfl, rfl, hm⟩ := seek_some s n k' h
              exact ⟨d :: m, b, by simp, by simp, by rw [h2]; exact .succ (a := []) .nil hm⟩
        · rw [if_neg h2, Option.map_eq_some_iff] at h
          obtain ⟨k', h, rfl⟩ := h
          obtain ⟨m, b, rfl, rfl, hm⟩ := seek_some s n k' h
          exact ⟨d :: m, b, by simp, by simp, Closing.prepend (b := [d]) (.other h1 h2 .nil) hm⟩

theorem seek_iff {o c : Char} (hoc : o ≠ c) (s : Str) (k : Nat) :
    seek o c 1 s = some k ↔ ∃ m b, s = m ++ c :: b ∧ m.length = k ∧ Balanced o c m := by
  constructor
  · intro h
    obtain ⟨m, b, h1, h2, h3⟩ := seek_some s 0 k h
    cases h3 with
    | zero h3 => exact ⟨m, b, h1, h2, h3⟩
  · rintro ⟨m, b, rfl, rfl, hm⟩
    rw [seek_balanced hoc hm 0, seek, if_neg (Ne.symm hoc), if_pos rfl, if_pos rfl]
    simp

theorem kind_ne {o c : Char} (h : Kind o c) : o ≠ c := by
  rcases h with ⟨rfl, rfl⟩ | ⟨rfl, rfl⟩ | ⟨rfl, rfl⟩ <;> decide

theorem partner_open {o c : Char} (h : Kind o c) : partner o = some (c, true) := by
  rcases h with ⟨rfl, rfl⟩ | ⟨rfl, rfl⟩ | ⟨rfl, rfl⟩ <;> decide

theorem partner_close {o c : Char} (h : Kind o c) : partner c = some (o, false) := by
  rcases h with ⟨rfl, rfl⟩ | ⟨rfl, rfl⟩ | ⟨rfl, rfl⟩ <;> decide

theorem partner_some {d m : Char} {dir : Bool} (h : partner d = some (m, dir)) :
    (dir = true ∧ Kind d m) ∨ (dir = false ∧ Kind m d) := by
  unfold partner at h
  repeat' split at h
  all_goals simp only [Option.some.injEq, Prod.mk.injEq, reduceCtorEq] at h
  all_goals obtain ⟨rfl, rfl⟩ := h
  all_goals simp_all [Kind]

theorem split_at {α : Type} {s : List α} {i : Nat} {x : α} (h : s[i]? = some x) :
    s = s.take i ++ x :: s.drop (i + 1) ∧ (s.take i).length = i := by
  have hi : i < s.length := by
    rcases Nat.lt_or_ge i s.length with h1 | h1
    · exact h1
    · rw [List.getElem?_eq_none h1] at h; exact absurd h (by simp)
  refine ⟨?_, by rw [List.length_take]; omega⟩
  have h2 : s[i] = x := by rw [List.getElem?_eq_getElem hi] at h; exact Option.some.inj h
  rw [← h2, ← List.drop_eq_getElem_cons hi, List.take_append_drop]

/-- C157: the bracket that is marked with a bracket is the one that belongs to it: between them brackets of this
kind are balanced.  If there is one it is found. -/
theorem matching_iff (buf : Str) (i j : Nat) : matching buf i = some j ↔ Pair buf i j ∨ Pair buf j i := by
  constructor
  · intro h
    unfold matching at h
    split at h
    · exact absurd h (by simp)
    · rename_i d hd
      obtain ⟨hsplit, hlen⟩ := split_at hd
      split at h
      · exact absurd h (by simp)
      · rename_i m hp
        rcases partner_some hp with ⟨_, hk⟩ | ⟨h0, _⟩
        · rw [Option.map_eq_some_iff] at h
          obtain ⟨k, h, rfl⟩ := h
          obtain ⟨x, b, e, rfl, hb⟩ := (seek_iff (kind_ne hk) _ _).1 h
          exact .inl ⟨d, m, buf.take i, x, b, hk, by rw [List.append_assoc, List.cons_append, ← e]; exact hsplit, hb, hlen.symm,
            by rw [hlen]⟩
        · exact absurd h0 (by simp)
      · rename_i m hp
        rcases partner_some hp with ⟨h0, _⟩ | ⟨_, hk⟩
        · exact absurd h0 (by simp)
        · rw [Option.map_eq_some_iff] at h
          obtain ⟨k, h, rfl⟩ := h
          obtain ⟨x, b, e, rfl, hb⟩ := (seek_iff (Ne.symm (kind_ne hk)) _ _).1 h
          have e2 : buf.take i = b.reverse ++ m :: x.reverse := by
            rw [← List.reverse_reverse (buf.take i), e]; simp
          have hl2 : i = b.length + 1 + x.length := by
            rw [← hlen, e2]; simp; omega
          refine .inr ⟨m, d, b.reverse, x.reverse, buf.drop (i + 1), hk, by rw [← e2]; exact hsplit, hb.reverse, ?_, ?_⟩
          · rw [List.length_reverse]; omega
          · simp only [List.length_reverse]; omega
  · rintro (⟨o, c, a, m, b, hk, rfl, hb, rfl, rfl⟩ | ⟨o, c, a, m, b, hk, rfl, hb, rfl, rfl⟩)
    · unfold matching
      have h1 : (a ++ o :: m ++ c :: b)[a.length]? = some o := by simp
      have h2 : (a ++ o :: m ++ c :: b).drop (a.length + 1) = m ++ c :: b := by
        rw [List.append_assoc, ← List.drop_drop, List.drop_left]; simp
      rw [h1]
      simp only [partner_open hk, h2, (seek_iff (kind_ne hk) _ _).2 ⟨m, b, rfl, rfl, hb⟩, Option.map_some]
    · unfold matching
      have hl : a.length + 1 + m.length = (a ++ o :: m).length := by simp; omega
      have h1 : (a ++ o :: m ++ c :: b)[a.length + 1 + m.length]? = some c := by rw [hl]; simp
      have h2 : ((a ++ o :: m ++ c :: b).take (a.length + 1 + m.length)).reverse = m.reverse ++ o :: a.reverse := by
        rw [hl, List.take_left]; simp
      rw [h1]
      simp only [partner_close hk, h2, (seek_iff (Ne.symm (kind_ne hk)) _ _).2 ⟨m.reverse, a.reverse, rfl, rfl, hb.reverse⟩,
        Option.map_some, List.length_reverse, Option.some.injEq]
      have := hl
      rw [List.length_append, List.length_cons] at *
      omega

/-- C157: marks are set for the bracket under the cursor or, if there is none with a partner, before it. -/
theorem marks_spec (buf : Str) (cur i j : Nat) (h : marks buf (some cur) = some (i, j)) :
    (Pair buf i j ∨ Pair buf j i) ∧ (i = cur ∨ (i + 1 = cur ∧ ∀ k, ¬ (Pair buf cur k ∨ Pair buf k cur))) := by
  rw [marks] at h
  cases hm : matching buf cur with
  | some m =>
      rw [hm] at h
      simp only [Option.some.injEq, Prod.mk.injEq] at h
      obtain ⟨rfl, rfl⟩ := h
      exact ⟨(matching_iff _ _ _).1 hm, .inl rfl⟩
  | none =>
      rw [hm] at h
      simp only at h
      by_cases h0 : 0 < cur
      · rw [if_pos h0, Option.map_eq_some_iff] at h
        obtain ⟨m, hm2, e⟩ := h
        simp only [Prod.mk.injEq] at e
        obtain ⟨rfl, rfl⟩ := e
        refine ⟨(matching_iff _ _ _).1 hm2, .inr ⟨by omega, fun k hk => ?_⟩⟩
        rw [(matching_iff _ _ _).2 hk] at hm
        exact absurd hm (by simp)
      · rw [if_neg h0] at h; exact absurd h (by simp)

/-- C157: with a partner for the bracket under the cursor both are marked. -/
theorem marks_under (buf : Str) (cur j : Nat) (h : Pair buf cur j ∨ Pair buf j cur) : marks buf (some cur) = some (cur, j) := by
  rw [marks, (matching_iff _ _ _).2 h]

/-- C157: with no partner for what is under the cursor, the bracket before the cursor is marked with its partner. -/
theorem marks_before (buf : Str) (cur j : Nat) (h0 : ∀ k, ¬ (Pair buf (cur + 1) k ∨ Pair buf k (cur + 1)))
    (h : Pair buf cur j ∨ Pair buf j cur) : marks buf (some (cur + 1)) = some (cur, j) := by
  have hm : matching buf (cur + 1) = none := by
    cases hm : matching buf (cur + 1) with
    | none => rfl
    | some k => exact absurd ((matching_iff _ _ _).1 hm) (h0 k)
  rw [marks, hm]
  simp only [Nat.succ_pos, if_true, Nat.add_sub_cancel, (matching_iff _ _ _).2 h, Option.map_some]

example : Pair "f(a(b)c) d".toList 1 7 :=
  ⟨'(', ')', ['f'], "a(b)c".toList, " d".toList, .inl ⟨rfl, rfl⟩, rfl,
    .other (by decide) (by decide) (.nest (s := ['b']) (t := ['c']) (.other (by decide) (by decide) .nil)
      (.other (by decide) (by decide) .nil)), rfl, rfl⟩

end Verif.Highlight
