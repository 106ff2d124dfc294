import Verif.StrLit.Model

/-!
# Escapes and literals
-/

namespace Verif.StrLit

open Spec
open Verif.Str (Byte)

theorem escape_cons {c : Byte} (h : c ≠ 92) (r : List Byte) :
    escape (c :: r) = escape1 c ++ escape r := by
  cases r <;> simp [escape, h]

theorem escape_bs (d : Byte) (r : List Byte) : escape (92 :: d :: r) = 92 :: d :: escape r := by
  simp [escape]

/-- bytes that are neither digits nor anything special -/
structure Plain (P : Byte → Bool) : Prop where
  nl : P 10 = false
  cr : P 13 = false
  tab : P 9 = false
  quote : P 34 = false
  bs : P 92 = false

theorem plain_oct : Plain (fun c => decide (digit c < 8)) := by constructor <;> decide
theorem plain_hex : Plain (fun c => decide (digit c < 16)) := by constructor <;> decide

theorem Plain.escape1 {P : Byte → Bool} (hP : Plain P) {c : Byte} (h : P c = true) :
    StrLit.escape1 c = [c] ∧ c ≠ 92 := by
  have : ∀ x, P x = false → c ≠ x := by rintro x hx rfl; simp [hx] at h
  unfold StrLit.escape1
  simp [this 10 hP.nl, this 13 hP.cr, this 9 hP.tab, this 34 hP.quote, this 92 hP.bs]

theorem tw_escape {P : Byte → Bool} (hP : Plain P) (s : List Byte) : ∀ (r : List Byte) (k : Nat),
    ((escape r ++ 34 :: s).take k).takeWhile P = (r.take k).takeWhile P := by
  intro r
  induction r with
  | nil => intro k; cases k <;> simp [escape, hP.quote]
  | cons c r ih =>
    intro k
    cases k with
    | zero => simp
    | succ k =>
      by_cases h : P c = true
      · obtain ⟨h1, h2⟩ := hP.escape1 h
        rw [escape_cons h2, h1]
        simp [h, ih]
      · have h' : P c = false := by simpa using h
        have : ∀ x y, P x = false → ((x :: y : List Byte).take (k + 1)).takeWhile P = [] := by
          intro x y hx; simp [hx]
        rw [List.take_succ_cons, List.takeWhile_cons, if_neg h]
        by_cases hc : c = 92
        · subst hc
          cases r with
          | nil => simpa [escape] using this 92 _ hP.bs
          | cons d r => rw [escape_bs]; exact this 92 _ hP.bs
        · rw [escape_cons hc]
          unfold escape1
          repeat' split
          all_goals first | exact this 92 _ hP.bs | exact this c _ h'

theorem tw_escape' {P : Byte → Bool} (hP : Plain P) (s r : List Byte) :
    (escape r ++ 34 :: s).takeWhile P = r.takeWhile P := by
  have h := tw_escape hP s r (r.length + (escape r ++ 34 :: s).length)
  rwa [List.take_of_length_le (by omega), List.take_of_length_le (by omega)] at h

theorem escape_split {P : Byte → Bool} (hP : Plain P) : ∀ (r : List Byte) (n : Nat),
    n ≤ (r.takeWhile P).length → escape r = r.take n ++ escape (r.drop n) := by
  intro r
  induction r with
  | nil => intro n _; simp [escape]
  | cons c r ih =>
    intro n hn
    cases n with
    | zero => simp
    | succ n =>
      by_cases h : P c = true
      · obtain ⟨h1, h2⟩ := hP.escape1 h
        simp only [List.takeWhile_cons, h, if_true, List.length_cons] at hn
        rw [escape_cons h2, h1, ih n (by omega)]
        simp
      · simp [h] at hn

theorem take_tw_le (P : Byte → Bool) (r : List Byte) (k : Nat) :
    ((r.take k).takeWhile P).length ≤ (r.takeWhile P).length := by
  induction r generalizing k with
  | nil => simp
  | cons c r ih =>
    cases k with
    | zero => simp
    | succ k =>
      simp only [List.take_succ_cons, List.takeWhile_cons]
      split
      · simpa using ih k
      · simp

/-- the escape after a backslash is not changed -/
theorem esc_escape {d : Byte} {r r' : List Byte} {v : Byte} (s : List Byte)
    (h : esc (d :: r) = some (v, r')) :
    esc (d :: (escape r ++ 34 :: s)) = some (v, escape r' ++ 34 :: s) := by
  simp only [esc] at h ⊢
  cases hs : simple d with
  | some w =>
    simp only [hs, Option.some.injEq, Prod.mk.injEq] at h ⊢
    obtain ⟨rfl, rfl⟩ := h
    exact ⟨rfl, rfl⟩
  | none =>
    simp only [hs] at h ⊢
    split at h
    · rename_i hd
      rw [if_pos hd]
      simp only [List.take_succ_cons, List.takeWhile_cons, decide_eq_true hd, if_true] at h ⊢
      rw [tw_escape plain_oct]
      split at h
      · rename_i hv
        rw [if_pos hv]
        simp only [Option.some.injEq, Prod.mk.injEq] at h ⊢
        refine ⟨h.1, ?_⟩
        rw [← h.2]
        simp only [List.length_cons, List.drop_succ_cons]
        have hle := take_tw_le (fun c => decide (digit c < 8)) r 2
        have hlr := (List.takeWhile_prefix (l := r) (fun c => decide (digit c < 8))).length_le
        rw [escape_split plain_oct r _ hle]
        simp [List.length_take, Nat.min_eq_left (Nat.le_trans hle hlr)]
      · simp at h
    · rename_i hd
      rw [if_neg hd]
      split at h
      · rename_i hx
        rw [if_pos hx, tw_escape' plain_hex]
        split at h
        · rename_i hv
          rw [if_pos hv]
          simp only [Option.some.injEq, Prod.mk.injEq] at h ⊢
          refine ⟨h.1, ?_⟩
          rw [← h.2]
          have hlr := (List.takeWhile_prefix (l := r) (fun c => decide (digit c < 16))).length_le
          rw [escape_split plain_hex r _ (Nat.le_refl _)]
          simp [List.length_take, Nat.min_eq_left hlr]
        · simp at h
      · simp at h

/-- what an escape consists of -/
theorem esc_split {r r' : List Byte} {v : Byte} (h : esc r = some (v, r')) :
    ∃ d n, r = d :: (r.drop 1) ∧ r' = (r.drop 1).drop n ∧
      n ≤ ((r.drop 1).takeWhile fun c => decide (digit c < 16)).length ∧
      d ≠ 10 ∧ d ≠ 123 ∧ d ≠ 125 := by
  cases r with
  | nil => simp [esc] at h
  | cons d r =>
    simp only [esc] at h
    refine ⟨d, ?_⟩
    simp only [List.drop_succ_cons, List.drop_zero, true_and]
    cases hs : simple d with
    | some w =>
      simp only [hs, Option.some.injEq, Prod.mk.injEq] at h
      have : ∀ x, simple x = none → d ≠ x := by rintro x hx rfl; simp [hx] at hs
      exact ⟨0, by simp [h.2], by simp, this _ rfl, this _ rfl, this _ rfl⟩
    | none =>
      simp only [hs] at h
      split at h
      · rename_i hd
        have hne : ∀ x, ¬ digit x < 8 → d ≠ x := by rintro x hx rfl; exact hx hd
        simp only [List.take_succ_cons, List.takeWhile_cons, decide_eq_true hd, if_true] at h
        split at h
        · simp only [Option.some.injEq, Prod.mk.injEq, List.length_cons, List.drop_succ_cons] at h
          refine ⟨_, h.2.symm, ?_, hne _ (by decide), hne _ (by decide), hne _ (by decide)⟩
          refine Nat.le_trans (take_tw_le _ r 2) ?_
          have : ∀ l : List Byte, (l.takeWhile fun c => decide (digit c < 8)).length ≤
              (l.takeWhile fun c => decide (digit c < 16)).length := by
            intro l
            induction l with
            | nil => simp
            | cons a l ih =>
              simp only [List.takeWhile_cons]
              by_cases h8 : digit a < 8
              · have h16 : digit a < 16 := by omega
                simpa [h8, h16] using ih
              · simp [h8]
          exact this r
        · simp at h
      · split at h
        · rename_i hx
          split at h
          · simp only [Option.some.injEq, Prod.mk.injEq] at h
            subst hx
            exact ⟨_, h.2.symm, Nat.le_refl _, by decide, by decide, by decide⟩
          · simp at h
        · simp at h

theorem esc_length {r r' : List Byte} {v : Byte} (h : esc r = some (v, r')) :
    r'.length < r.length := by
  obtain ⟨d, n, h1, h2, _⟩ := esc_split h
  rw [h2]
  have := congrArg List.length h1
  simp only [List.length_cons, List.length_drop] at this ⊢
  omega

theorem tw_all {P : Byte → Bool} (l : List Byte) (n : Nat) (hn : n ≤ (l.takeWhile P).length) :
    ∀ c ∈ l.take n, P c = true := by
  induction l generalizing n with
  | nil => simp
  | cons a l ih =>
    cases n with
    | zero => simp
    | succ n =>
      simp only [List.takeWhile_cons] at hn
      split at hn
      · rename_i ha
        intro c hc
        simp only [List.take_succ_cons, List.mem_cons] at hc
        rcases hc with rfl | hc
        · exact ha
        · exact ih n (by simpa using hn) c hc
      · simp at hn

theorem body_no_nl {b v : List Byte} (h : Body b v) : (10 : Byte) ∉ escape b := by
  induction h with
  | nil => simp [escape]
  | @esc r r' v vs he _ ih =>
    obtain ⟨d, n, h1, h2, h3, h4, _⟩ := esc_split he
    rw [h1, escape_bs, escape_split plain_hex _ n h3, ← h2]
    simp only [List.mem_cons, List.mem_append, not_or]
    refine ⟨by decide, fun hh => h4 hh.symm, fun hh => ?_, ih⟩
    have := tw_all _ n h3 _ hh
    simp [digit] at this
  | @raw c r vs hc _ ih =>
    rw [escape_cons hc]
    simp only [List.mem_append, not_or]
    refine ⟨?_, ih⟩
    unfold escape1
    repeat' split
    all_goals first
      | decide
      | (simp only [List.mem_singleton]; rename_i h1 _ _ _; exact fun hh => h1 hh.symm)

theorem body_clit {b v : List Byte} (h : Body b v) (rest : List Byte) :
    CLit (escape b ++ 34 :: rest) v rest := by
  induction h with
  | nil => exact .close rest
  | @esc r r' v vs he _ ih =>
    cases r with
    | nil => simp [esc] at he
    | cons d r =>
      rw [escape_bs]
      exact .esc (esc_escape rest he) ih
  | @raw c r vs hc _ ih =>
    rw [escape_cons hc]
    unfold escape1
    split
    · rename_i h; subst h; exact .esc (r' := escape r ++ 34 :: rest) rfl ih
    · rename_i h10
      split
      · rename_i h; subst h; exact .esc (r' := escape r ++ 34 :: rest) rfl ih
      · split
        · rename_i h; subst h; exact .esc (r' := escape r ++ 34 :: rest) rfl ih
        · split
          · rename_i h; subst h; exact .esc (r' := escape r ++ 34 :: rest) rfl ih
          · rename_i h34
            exact .raw hc h34 h10 ih

theorem splice_cons {c : Byte} (h : c ≠ 92) (r : List Byte) : splice (c :: r) = c :: splice r := by
  cases r <;> simp [splice, h]

theorem splice_append (x : List Byte) (h : (10 : Byte) ∉ x) (rest : List Byte) :
    splice (x ++ 34 :: rest) = x ++ 34 :: splice rest := by
  induction x with
  | nil => simp [splice_cons (c := 34) (by decide)]
  | cons c x ih =>
    have ih := ih fun hh => h (List.mem_cons_of_mem _ hh)
    cases x with
    | nil =>
      simp only [List.cons_append, List.nil_append, splice] at ih ⊢
      rw [if_neg (by simp)]
      rw [ih]
    | cons d x =>
      simp only [List.cons_append, splice] at ih ⊢
      have : d ≠ 10 := fun hh => h (by simp [hh])
      rw [if_neg (by simp [this]), ih]

theorem Spec.CLit.det {t v rest v' rest' : List Byte} (h : CLit t v rest) (h' : CLit t v' rest') :
    v = v' ∧ rest = rest' := by
  induction h generalizing v' rest' with
  | close => cases h' with
    | close => exact ⟨rfl, rfl⟩
    | raw _ h2 _ _ => exact absurd rfl h2
  | esc he _ ih => cases h' with
    | esc he' hr =>
      rw [he] at he'
      simp only [Option.some.injEq, Prod.mk.injEq] at he'
      obtain ⟨rfl, rfl⟩ := he'
      obtain ⟨rfl, rfl⟩ := ih hr
      exact ⟨rfl, rfl⟩
    | raw h1 _ _ _ => exact absurd rfl h1
  | raw h1 h2 h3 _ ih => cases h' with
    | close => exact absurd rfl h2
    | esc _ _ => exact absurd rfl h1
    | raw _ _ _ hr =>
      obtain ⟨rfl, rfl⟩ := ih hr
      exact ⟨rfl, rfl⟩

theorem Spec.CStr.det {t v rest v' rest' : List Byte} (h : CStr t v rest) (h' : CStr t v' rest') :
    v = v' ∧ rest = rest' := by
  obtain ⟨a, h1, h2⟩ := h
  obtain ⟨b, h3, h4⟩ := h'
  rw [h1] at h3
  obtain rfl : a = b := by simpa using h3
  exact h2.det h4

theorem Spec.CLit.length {t v rest : List Byte} (h : CLit t v rest) :
    ∃ p, t = p ++ rest ∧ v.length + 1 ≤ p.length ∧ (92 ∈ p → v.length + 1 < p.length) := by
  induction h with
  | close rest => exact ⟨[34], rfl, by simp, by decide⟩
  | @esc r r' rest v vs he _ ih =>
    obtain ⟨p, h1, h2, _⟩ := ih
    obtain ⟨d, n, h3, h4, _⟩ := esc_split he
    refine ⟨92 :: d :: ((r.drop 1).take n ++ p), ?_, ?_, ?_⟩
    · have : r = d :: ((r.drop 1).take n ++ r') := by rw [h4, List.take_append_drop]; exact h3
      rw [h1] at this
      simp only [List.cons_append, List.append_assoc, List.cons.injEq, true_and]
      exact this
    · simp only [List.length_cons, List.length_append]; omega
    · intro _; simp only [List.length_cons, List.length_append]; omega
  | @raw c r vs rest hc _ _ _ ih =>
    obtain ⟨p, h1, h2, h3⟩ := ih
    refine ⟨c :: p, by simp [h1], by simpa using h2, fun hm => ?_⟩
    simp only [List.mem_cons] at hm
    rcases hm with hm | hm
    · exact absurd hm.symm hc
    · have := h3 hm
      simpa using this

theorem splice_length (x : List Byte) : (splice x).length ≤ x.length ∧
    (92 ∈ x → 92 ∈ splice x ∨ (splice x).length < x.length) := by
  induction x using splice.induct with
  | case1 => simp [splice]
  | case2 c => simp [splice]
  | case3 c d r h ih =>
    simp only [splice, if_pos h, List.length_cons]
    exact ⟨by omega, fun _ => .inr (by omega)⟩
  | case4 c d r h ih =>
    simp only [splice, if_neg h, List.length_cons] at ih ⊢
    refine ⟨by omega, fun hm => ?_⟩
    rcases List.mem_cons.mp hm with hm | hm
    · exact .inl (by simp [← hm])
    · rcases ih.2 hm with h1 | h1
      · exact .inl (List.mem_cons_of_mem _ h1)
      · exact .inr (by omega)

end Verif.StrLit
