import Verif.StdRegex.Model

/-!
# Regular expressions of the standard library: properties
-/

namespace Verif.StdRegex

open Verif.Str (Byte)
open Spec

theorem occurs_suffix {L : List Byte → Prop} {t : List Byte} {p q : Nat} (h : Occurs L (t.drop q)) (hpq : p ≤ q) :
    Occurs L (t.drop p) := by
  obtain ⟨a, w, z, e, hw⟩ := h
  refine ⟨(t.drop p).take (q - p) ++ a, w, z, ?_, hw⟩
  rw [List.append_assoc, ← e]
  rw [show t.drop q = (t.drop p).drop (q - p) by rw [List.drop_drop]; congr 1; omega]
  exact (List.take_append_drop _ _).symm

/-- what `count` counts: the positions up to the last one from which something is found -/
theorem countF_last {found : List Byte → Bool} {t : List Byte} {p : Nat} (hp : p < t.length)
    (hyes : ∀ q ≤ p, found (t.drop q) = true) (hno : ∀ q, p < q → q < t.length → found (t.drop q) = false) :
    ∀ (k pos n : Nat), pos + k = p + 1 → ∀ f, t.length < f + pos → countF found t f pos n = n + k := by
  intro k
  induction k with
  | zero =>
      intro pos n hk f hf
      obtain rfl : pos = p + 1 := by omega
      cases f with
      | zero => rfl
      | succ f =>
          unfold countF
          split
          · rename_i hl
            simp [hno (p + 1) (by omega) hl]
          · rfl
  | succ k ih =>
      intro pos n hk f hf
      obtain ⟨g, rfl⟩ : ∃ g, f = g + 1 := ⟨f - 1, by omega⟩
      unfold countF
      rw [if_pos (by omega), if_pos (hyes pos (by omega)), ih (pos + 1) (n + 1) (by omega) g (by omega)]
      omega

/-- **C57**, in part: `count` is 0 exactly if nothing in a (non-empty) text matches. -/
theorem count_zero_partial {found : List Byte → Bool} {L : List Byte → Prop} (h : Searches found L)
    (t : List Byte) (hne : t ≠ []) : count found t = 0 ↔ Count L t 0 := by
  have hpos : 0 < t.length := List.length_pos_iff.2 hne
  have hge : ∀ (f pos n : Nat), n ≤ countF found t f pos n := by
    intro f
    induction f with
    | zero => intro pos n; exact Nat.le_refl _
    | succ f ih =>
        intro pos n
        unfold countF
        split
        · split
          · have := ih (pos + 1) (n + 1); omega
          · exact Nat.le_refl _
        · exact Nat.le_refl _
  constructor
  · intro hc
    refine .none fun ho => ?_
    have hf : found (t.drop 0) = true := (h _).2 (by simpa using ho)
    unfold count countF at hc
    rw [if_pos hpos, if_pos hf] at hc
    have := hge t.length (0 + 1) (0 + 1)
    omega
  · intro hc
    cases hc with
    | none hno =>
        have hf : ¬ found (t.drop 0) = true := fun hf => hno (by simpa using (h _).1 hf)
        unfold count countF
        rw [if_pos hpos, if_neg hf]

/-- **C57** is violated: if the last match begins at position `p`, `count` is `p + 1`, whatever comes
before it. -/
theorem count_violated {found : List Byte → Bool} {L : List Byte → Prop} (h : Searches found L)
    (t : List Byte) (p : Nat) (hp : p < t.length) (hyes : Occurs L (t.drop p))
    (hno : ¬ Occurs L (t.drop (p + 1))) : count found t = p + 1 := by
  have := countF_last (found := found) hp
    (fun q hq => (h _).2 (occurs_suffix hyes hq))
    (fun q hq _ => by
      cases hf : found (t.drop q) with
      | false => rfl
      | true => exact absurd (occurs_suffix ((h _).1 hf) (by omega)) hno) (p + 1) 0 0 (by omega) (t.length + 1)
      (by omega)
  unfold count
  omega

/-- the expression `x` -/
def One (x : Byte) : List Byte → Prop := fun w => w = [x]

theorem occurs_one {x : Byte} {t : List Byte} : Occurs (One x) t ↔ x ∈ t := by
  constructor
  · rintro ⟨a, w, z, rfl, rfl⟩; simp
  · intro h
    obtain ⟨a, b, rfl⟩ := List.append_of_mem h
    exact ⟨a, [x], b, by simp, rfl⟩

/-- one `x` behind `n` other characters: there is one match, `count` says `n + 1` -/
theorem count_one_violated (found : List Byte → Bool) (x y : Byte) (hxy : y ≠ x) (h : Searches found (One x))
    (n : Nat) :
    Count (One x) (List.replicate n y ++ [x]) 1 ∧ count found (List.replicate n y ++ [x]) = n + 1 := by
  constructor
  · refine .next (a := List.replicate n y) (w := [x]) (r := []) rfl (by simp) ?_ (.none ?_)
    · rintro b w z e rfl
      rw [List.append_nil] at e
      have hb : b.length + (1 + z.length) = n + 1 := by
        have := congrArg List.length e; simp at this; omega
      rcases Nat.lt_or_ge b.length n with hlt | hge
      · exfalso
        have h1 : (List.replicate n y ++ [x])[b.length]? = some y := by
          rw [List.getElem?_append_left (by simpa using hlt)]; simp [hlt]
        rw [e] at h1
        simp at h1
        exact hxy h1.symm
      · simpa using hge
    · rw [occurs_one]; simp
  · have hd : (List.replicate n y ++ [x]).drop n = [x] := by
      rw [List.drop_append, List.drop_of_length_le (by simp)]; simp
    have hd' : (List.replicate n y ++ [x]).drop (n + 1) = [] := by
      apply List.drop_of_length_le; simp
    refine count_violated h _ n (by simp) ?_ ?_
    · rw [hd, occurs_one]; simp
    · rw [hd', occurs_one]; simp

/-- what `split` returns, at a position behind the last match -/
theorem splitF_tail {found : List Byte → Bool} {t : List Byte} {p : Nat}
    (hno : ∀ q, p ≤ q → q < t.length → found (t.drop q) = false) :
    ∀ (f pos last : Nat) (parts : List (List Byte)), p ≤ pos → t.length < f + pos → 0 < f →
      splitF found t f pos last parts = if last < t.length then parts ++ [t.drop last] else parts := by
  intro f
  induction f with
  | zero => intro pos last parts _ _ h0; omega
  | succ f ih =>
      intro pos last parts hp hf _
      unfold splitF
      split
      · rename_i hl
        simp only [hno pos hp hl, Bool.false_eq_true, if_false]
        exact ih (pos + 1) last parts (by omega) (by omega) (by omega)
      · rfl

/-- up to the last match nothing is kept -/
theorem splitF_last {found : List Byte → Bool} {t : List Byte} {p : Nat} (hp : p < t.length)
    (hyes : ∀ q ≤ p, found (t.drop q) = true) (hno : ∀ q, p + 1 ≤ q → q < t.length → found (t.drop q) = false) :
    ∀ (k pos : Nat), pos + k = p + 1 → ∀ f, t.length < f + pos → 0 < f →
      splitF found t f pos pos [] = if p + 1 < t.length then [t.drop (p + 1)] else [] := by
  intro k
  induction k with
  | zero =>
      intro pos hk f hf h0
      obtain rfl : pos = p + 1 := by omega
      simpa using splitF_tail hno f (p + 1) (p + 1) [] (Nat.le_refl _) hf h0
  | succ k ih =>
      intro pos hk f hf h0
      obtain ⟨g, rfl⟩ : ∃ g, f = g + 1 := ⟨f - 1, by omega⟩
      unfold splitF
      rw [if_pos (by omega), if_pos (hyes pos (by omega)), if_neg (by omega)]
      exact ih (pos + 1) (by omega) g (by omega) (by omega)

/-- **C57**, in part: a non-empty text in which nothing matches is the only part. -/
theorem split_nomatch_partial {found : List Byte → Bool} {L : List Byte → Prop} (h : Searches found L)
    (t : List Byte) (hne : t ≠ []) (hno : ¬ Occurs L t) : split found t = [t] ∧ Split L t (split found t) := by
  have hpos : 0 < t.length := List.length_pos_iff.2 hne
  have := splitF_tail (found := found) (t := t) (p := 0) (fun q _ _ => by
      cases hf : found (t.drop q) with
      | false => rfl
      | true => exact absurd (by simpa using occurs_suffix (p := 0) ((h _).1 hf) (Nat.zero_le _)) hno)
    (t.length + 1) 0 0 [] (Nat.le_refl _) (by omega) (by omega)
  rw [if_pos hpos] at this
  have e : split found t = [t] := by simpa [split] using this
  exact ⟨e, by rw [e]; exact .none hno⟩

/-- **C57** is violated: if the last match begins at position `p`, `split` returns the text behind position
`p` as the only part; all parts in front of the last match are lost. -/
theorem split_violated {found : List Byte → Bool} {L : List Byte → Prop} (h : Searches found L)
    (t : List Byte) (p : Nat) (hp : p < t.length) (hyes : Occurs L (t.drop p))
    (hno : ¬ Occurs L (t.drop (p + 1))) :
    split found t = if p + 1 < t.length then [t.drop (p + 1)] else [] :=
  splitF_last hp (fun q hq => (h _).2 (occurs_suffix hyes hq))
    (fun q hq _ => by
      cases hf : found (t.drop q) with
      | false => rfl
      | true => exact absurd (occurs_suffix ((h _).1 hf) hq) hno) (p + 1) 0 (by omega) _ (by omega) (by omega)

/-- `a,b` split at `,`: the parts are `a` and `b`, `split` returns `b` only -/
theorem split_one_violated (found : List Byte → Bool) (a b x : Byte) (ha : a ≠ x) (hb : b ≠ x)
    (h : Searches found (One x)) :
    Split (One x) [a, x, b] [[a], [b]] ∧ split found [a, x, b] = [[b]] := by
  constructor
  · refine .next (a := [a]) (w := [x]) (r := [b]) rfl (by simp) ?_ (.none ?_)
    · rintro c w z e rfl
      cases c with
      | nil => simp at e; exact absurd e.1 ha
      | cons d c => simp
    · rw [occurs_one]; simpa using hb.symm
  · have := split_violated h [a, x, b] 1 (by simp) (by rw [occurs_one]; simp)
      (by rw [occurs_one]; simpa using hb.symm)
    simpa using this

/-- a search for `x` -/
example (x : Byte) : Searches (fun t => t.contains x) (One x) := by
  intro t; rw [occurs_one]; simp

end Verif.StdRegex
