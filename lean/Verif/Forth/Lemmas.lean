import Verif.Forth.Model

/-!
# Lemmas about the Forth plugin
-/

namespace Verif.Forth

open Spec

/-! ## Tokens -/

/-- A token: not empty and without blanks. -/
def IsTok (w : Str) : Prop := w ≠ [] ∧ ∀ c ∈ w, blank c = false

theorem takeWhile_tok {w : Str} (h : ∀ c ∈ w, blank c = false) (r : Str) :
    (w ++ ' ' :: r).takeWhile (fun c => !blank c) = w ∧
      (w ++ ' ' :: r).dropWhile (fun c => !blank c) = ' ' :: r := by
  induction w with
  | nil => exact ⟨rfl, rfl⟩
  | cons c w ih =>
    have hc := h c (by simp)
    obtain ⟨h1, h2⟩ := ih (fun x hx => h x (by simp [hx]))
    rw [List.cons_append, List.takeWhile_cons, List.dropWhile_cons]
    simp only [hc, Bool.not_false, if_true]
    exact ⟨by rw [h1], h2⟩

theorem nextToken_tok {w : Str} (h : IsTok w) (r : Str) : nextToken (w ++ ' ' :: r) = some (w, r) := by
  obtain ⟨h1, h2⟩ := takeWhile_tok h.2 r
  obtain ⟨h0, hb⟩ := h
  cases w with
  | nil => exact absurd rfl h0
  | cons c w =>
    have hc := hb c (by simp)
    unfold nextToken
    have : List.dropWhile blank (c :: w ++ ' ' :: r) = c :: (w ++ ' ' :: r) := by
      rw [List.cons_append, List.dropWhile_cons, if_neg (by simp [hc])]
    rw [this]
    simp only
    rw [List.cons_append] at h1 h2
    rw [h1, h2]
    rfl

theorem nextToken_nil : nextToken [] = none := rfl

theorem text_cons (w : Str) (ws : List Str) (r : Str) :
    text (w :: ws) ++ r = w ++ ' ' :: (text ws ++ r) := by simp [text]

theorem text_append (a b : List Str) : text (a ++ b) = text a ++ text b := by simp [text]

theorem skipUntil_stop {w : Str} (h : IsTok w) {stop : Str → Bool} (hs : stop w = true) (r : Str) :
    skipUntil stop (w ++ ' ' :: r) = r := by
  rw [skipUntil.eq_def]
  split
  · rename_i h'
    rw [nextToken_tok h] at h'
    simp at h'
  · rename_i t r' h'
    rw [nextToken_tok h] at h'
    injection h' with h'
    injection h' with h1 h2
    subst h1 h2
    rw [if_pos hs]

theorem skipUntil_go {w : Str} (h : IsTok w) {stop : Str → Bool} (hs : stop w = false) (r : Str) :
    skipUntil stop (w ++ ' ' :: r) = skipUntil stop r := by
  rw [skipUntil.eq_def]
  split
  · rename_i h'
    rw [nextToken_tok h] at h'
    simp at h'
  · rename_i t r' h'
    rw [nextToken_tok h] at h'
    injection h' with h'
    injection h' with h1 h2
    subst h1 h2
    rw [if_neg (by simp [hs])]

theorem skipUntil_words {ws : List Str} {stop : Str → Bool} (h : ∀ w ∈ ws, IsTok w ∧ stop w = false)
    (r : Str) : skipUntil stop (text ws ++ r) = skipUntil stop r := by
  induction ws with
  | nil => rfl
  | cons w ws ih =>
    rw [text_cons, skipUntil_go (h w (by simp)).1 (h w (by simp)).2]
    exact ih (fun x hx => h x (by simp [hx]))

theorem findLoop_tok {w : Str} (h : IsTok w) (r : Str) (d : Nat) :
    findLoop (w ++ ' ' :: r) d =
      if w = "loop".toList then
        if (if w = "do".toList then d + 1 else d) = 0 then some r
        else findLoop r ((if w = "do".toList then d + 1 else d) - 1)
      else findLoop r (if w = "do".toList then d + 1 else d) := by
  rw [findLoop.eq_def]
  split
  · rename_i h'
    rw [nextToken_tok h] at h'
    simp at h'
  · rename_i t r' h'
    rw [nextToken_tok h] at h'
    injection h' with h'
    injection h' with h1 h2
    subst h1 h2
    rfl

/-! ## Fuel -/

/-- More fuel, or another runner that does as much. -/
def Le (f g : Str → St → Out St) : Prop := ∀ t s, f t s ≠ .more → g t s = f t s

theorem iterate_mono {f g : Str → St → Out St} (h : Le f g) (body : Str) (n : Nat) (i : Int) (s : St)
    (hm : iterate f body n i s ≠ .more) : iterate g body n i s = iterate f body n i s := by
  induction n generalizing i s with
  | zero => rfl
  | succ n ih =>
    rw [iterate] at hm ⊢
    rw [iterate]
    split
    · rename_i hl
      rw [if_pos hl] at hm
      have hb : f body { s with loops := i :: s.loops } ≠ .more := by
        intro hb
        rw [hb] at hm
        exact hm rfl
      rw [h _ _ hb]
      cases hx : f body { s with loops := i :: s.loops } with
      | ok s' =>
        rw [hx] at hm
        simp only [Out.ok_bind] at hm ⊢
        exact ih _ _ hm
      | exit => rfl
      | ub => rfl
      | more => rfl
    · rfl

theorem other_mono (E : Fl) {f g : Str → St → Out St} (h : Le f g) (t : Str) (s : St)
    (hm : other E f t s ≠ .more) : other E g t s = other E f t s := by
  unfold other at *
  revert hm
  split
  · intro _; rfl
  · split
    · intro _; rfl
    · split
      · intro hm; exact h _ _ hm
      · intro _; rfl

theorem bind_more {α β : Type} {x : Out α} {f : α → Out β} (h : (x >>= f) ≠ .more) : x ≠ .more := by
  intro hx
  rw [hx] at h
  exact h rfl

theorem eval_mono (E : Fl) {f g : Str → St → Out St} (h : Le f g) (t r : Str) (s : St)
    (hm : eval E f t r s ≠ .more) : eval E g t r s = eval E f t r s := by
  unfold eval at *
  cases hb : builtin t with
  | none =>
    rw [hb] at hm
    simp only at hm ⊢
    rw [other_mono E h t s (bind_more hm)]
  | some w =>
    rw [hb] at hm
    cases w with
    | do' =>
      simp only at hm ⊢
      cases hf : findLoop r 0 with
      | none => rfl
      | some r' =>
        rw [hf] at hm
        simp only at hm ⊢
        rw [iterate_mono h _ _ _ _ (bind_more hm)]
    | _ => rfl

theorem run_mono_succ (E : Fl) (k : Nat) : Le (run E k) (run E (k + 1)) := by
  induction k with
  | zero =>
    intro t s hm
    exact absurd rfl hm
  | succ k ih =>
    intro t s hm
    rw [run] at hm ⊢
    rw [run]
    cases hn : nextToken t with
    | none => rfl
    | some p =>
      obtain ⟨w, r⟩ := p
      rw [hn] at hm
      simp only at hm ⊢
      rw [eval_mono E ih w r s (bind_more hm)]
      cases hx : eval E (run E k) w r s with
      | ok q =>
        rw [hx] at hm
        simp only [Out.ok_bind] at hm ⊢
        exact ih _ _ hm
      | exit => rfl
      | ub => rfl
      | more => rfl

theorem run_mono (E : Fl) {k m : Nat} (hk : k ≤ m) : Le (run E k) (run E m) := by
  induction hk with
  | refl => intro t s _; rfl
  | step _ ih =>
    intro t s hm
    have := ih t s hm
    rw [run_mono_succ E _ t s (by rw [this]; exact hm), this]

/-- The text is run, with an outcome. -/
def Runs (E : Fl) (t : Str) (s : St) (o : Out St) : Prop := o ≠ .more ∧ ∃ k, run E k t s = o

theorem Runs.unique {E : Fl} {t : Str} {s : St} {o o' : Out St} (h : Runs E t s o)
    (h' : Runs E t s o') : o = o' := by
  obtain ⟨h0, k, hk⟩ := h
  obtain ⟨h0', k', hk'⟩ := h'
  have a := run_mono E (Nat.le_max_left k k') t s (by rw [hk]; exact h0)
  have b := run_mono E (Nat.le_max_right k k') t s (by rw [hk']; exact h0')
  rw [← hk, ← hk', ← a, ← b]

theorem run_tok (E : Fl) {w : Str} (h : IsTok w) (r : Str) (k : Nat) (s : St) :
    run E (k + 1) (w ++ ' ' :: r) s = (do
      let p ← eval E (run E k) w r s
      run E k p.1 p.2) := by
  rw [run, nextToken_tok h]

/-! ## Blanks at the end -/

/-- The same but for a blank at the end. -/
def Tr (a b : Str) : Prop := b = a ∨ b = a ++ [' ']

theorem takeWhile_append_blank (a : Str) (p : Char → Bool) (hp : p ' ' = false) :
    (a ++ [' ']).takeWhile p = a.takeWhile p := by
  induction a with
  | nil => simp [hp]
  | cons c a ih =>
    rw [List.cons_append, List.takeWhile_cons, List.takeWhile_cons, ih]

theorem dropWhile_tok_blank (a : Str) :
    (a ++ [' ']).dropWhile (fun c => !blank c) = a.dropWhile (fun c => !blank c) ++ [' '] := by
  induction a with
  | nil => rfl
  | cons c a ih =>
    rw [List.cons_append, List.dropWhile_cons, List.dropWhile_cons]
    split
    · exact ih
    · rfl

theorem dropWhile_blank (a : Str) :
    (a ++ [' ']).dropWhile blank =
      if a.dropWhile blank = [] then [] else a.dropWhile blank ++ [' '] := by
  induction a with
  | nil => rfl
  | cons c a ih =>
    rw [List.cons_append, List.dropWhile_cons, List.dropWhile_cons]
    split
    · exact ih
    · rw [if_neg (by simp)]; rfl

/-- Texts that are the same but for a blank at the end, and what is left of them behind the same place,
or behind their ends. -/
def Split (a b r r' : Str) : Prop :=
  (∃ x, a = x ++ r ∧ b = x ++ r' ∧ Tr r r') ∨ (b = a ++ [' '] ∧ r = [] ∧ r' = [])

theorem Split.tr {a b r r' : Str} (h : Split a b r r') : Tr r r' := by
  rcases h with ⟨_, _, _, h⟩ | ⟨_, rfl, rfl⟩
  · exact h
  · exact .inl rfl

theorem Split.trans {a b r r' q q' : Str} (h : Split a b r r') (h' : Split r r' q q') :
    Split a b q q' := by
  rcases h with ⟨x, rfl, rfl, h⟩ | ⟨rfl, rfl, rfl⟩
  · rcases h' with ⟨y, rfl, rfl, h'⟩ | ⟨rfl, rfl, rfl⟩
    · exact .inl ⟨x ++ y, by simp, by simp, h'⟩
    · exact .inr ⟨by simp, rfl, rfl⟩
  · rcases h' with ⟨y, h1, h2, h'⟩ | ⟨h1, _, _⟩
    · have h1 := h1.symm
      have h2 := h2.symm
      rw [List.append_eq_nil_iff] at h1 h2
      exact .inr ⟨rfl, h1.2, h2.2⟩
    · simp at h1

theorem Split.take {a b r r' : Str} (h : Split a b r r') :
    Tr (a.take (a.length - r.length)) (b.take (b.length - r'.length)) := by
  rcases h with ⟨x, rfl, rfl, h⟩ | ⟨rfl, rfl, rfl⟩
  · left
    simp
  · right
    simp only [List.length_nil, Nat.sub_zero, List.take_length]

theorem nextToken_tr {a b : Str} (h : Tr a b) :
    (nextToken a = none ∧ nextToken b = none) ∨
      ∃ t r r', nextToken a = some (t, r) ∧ nextToken b = some (t, r') ∧ Split a b r r' := by
  have hab : ∀ a : Str, a = a.takeWhile blank ++ a.dropWhile blank := fun a =>
    (List.takeWhile_append_dropWhile).symm
  have hpq : ∀ a : Str, a = a.takeWhile (fun c => !blank c) ++ a.dropWhile (fun c => !blank c) :=
    fun a => (List.takeWhile_append_dropWhile).symm
  have split1 : ∀ d : Str, ∃ y, d = y ++ d.drop 1 := fun d =>
    ⟨d.take 1, (List.take_append_drop 1 d).symm⟩
  rcases h with rfl | rfl
  · cases hx : nextToken b with
    | none => exact .inl ⟨rfl, rfl⟩
    | some p =>
      refine .inr ⟨p.1, p.2, p.2, rfl, rfl, .inl ?_⟩
      unfold nextToken at hx
      cases hd : b.dropWhile blank with
      | nil => rw [hd] at hx; simp at hx
      | cons c r =>
        rw [hd] at hx
        simp only at hx
        injection hx with hx
        obtain ⟨y, hy⟩ := split1 ((c :: r).dropWhile (fun c => !blank c))
        have e : b = (b.takeWhile blank ++ (c :: r).takeWhile (fun c => !blank c) ++ y) ++ p.2 := by
          rw [← hx]
          simp only
          rw [List.append_assoc, ← hy, List.append_assoc, ← hpq, ← hd, ← hab]
        exact ⟨_, e, e, .inl rfl⟩
  · unfold nextToken
    rw [dropWhile_blank]
    cases hx : a.dropWhile blank with
    | nil => exact .inl ⟨rfl, rfl⟩
    | cons c r =>
      rw [if_neg (by simp)]
      right
      have h1 : (c :: r ++ [' ']).takeWhile (fun c => !blank c) =
          (c :: r).takeWhile (fun c => !blank c) := takeWhile_append_blank _ _ rfl
      have h2 := dropWhile_tok_blank (c :: r)
      rw [List.cons_append] at h1 h2 ⊢
      refine ⟨(c :: r).takeWhile (fun c => !blank c), ((c :: r).dropWhile (fun c => !blank c)).drop 1,
        ((c :: (r ++ [' '])).dropWhile (fun c => !blank c)).drop 1, rfl, ?_, ?_⟩
      · simp only
        rw [h1]
      · rw [h2]
        have e : a = a.takeWhile blank ++ (c :: r).takeWhile (fun c => !blank c) ++
            (c :: r).dropWhile (fun c => !blank c) := by
          rw [List.append_assoc, ← hpq, ← hx, ← hab]
        cases hd : (c :: r).dropWhile (fun c => !blank c) with
        | nil => exact .inr ⟨rfl, rfl, rfl⟩
        | cons x y =>
          rw [hd] at e
          refine .inl ⟨a.takeWhile blank ++ (c :: r).takeWhile (fun c => !blank c) ++ [x], ?_, ?_,
            .inr rfl⟩
          · conv => lhs; rw [e]
            simp
          · conv => lhs; rw [e]
            simp

theorem skipUntil_none (stop : Str → Bool) {a : Str} (h : nextToken a = none) :
    skipUntil stop a = [] := by
  rw [skipUntil.eq_def]
  split
  · rfl
  · rename_i h3; rw [h] at h3; simp at h3

theorem skipUntil_some (stop : Str → Bool) {a t r : Str} (h : nextToken a = some (t, r)) :
    skipUntil stop a = if stop t then r else skipUntil stop r := by
  rw [skipUntil.eq_def]
  split
  · rename_i h3; rw [h] at h3; simp at h3
  · rename_i h3
    rw [h] at h3
    injection h3 with h3
    injection h3 with e1 e2
    subst e1 e2
    rfl

theorem findLoop_none {a : Str} (h : nextToken a = none) (d : Nat) : findLoop a d = none := by
  rw [findLoop.eq_def]
  split
  · rfl
  · rename_i h3; rw [h] at h3; simp at h3

theorem findLoop_some {a t r : Str} (h : nextToken a = some (t, r)) (d : Nat) :
    findLoop a d =
      if t = "loop".toList then
        if (if t = "do".toList then d + 1 else d) = 0 then some r
        else findLoop r ((if t = "do".toList then d + 1 else d) - 1)
      else findLoop r (if t = "do".toList then d + 1 else d) := by
  rw [findLoop.eq_def]
  split
  · rename_i h3; rw [h] at h3; simp at h3
  · rename_i h3
    rw [h] at h3
    injection h3 with h3
    injection h3 with e1 e2
    subst e1 e2
    rfl

theorem skipUntil_tr (stop : Str → Bool) {a b : Str} (h : Tr a b) :
    Tr (skipUntil stop a) (skipUntil stop b) := by
  induction hn : a.length using Nat.strongRecOn generalizing a b with
  | _ n ih =>
    rcases nextToken_tr h with ⟨h1, h2⟩ | ⟨t, r, r', h1, h2, hr⟩
    · rw [skipUntil_none stop h1, skipUntil_none stop h2]
      exact .inl rfl
    · rw [skipUntil_some stop h1, skipUntil_some stop h2]
      split
      · exact hr.tr
      · exact ih _ (by have := nextToken_length h1; omega) hr.tr rfl

theorem findLoop_tr {a b : Str} (h : Tr a b) (d : Nat) :
    (findLoop a d = none ∧ findLoop b d = none) ∨
      ∃ r r', findLoop a d = some r ∧ findLoop b d = some r' ∧ Split a b r r' := by
  induction hn : a.length using Nat.strongRecOn generalizing a b d with
  | _ n ih =>
    rcases nextToken_tr h with ⟨h1, h2⟩ | ⟨t, r, r', h1, h2, hr⟩
    · rw [findLoop_none h1, findLoop_none h2]
      exact .inl ⟨rfl, rfl⟩
    · have hlen := nextToken_length h1
      have next : ∀ d, (findLoop r d = none ∧ findLoop r' d = none) ∨
          ∃ q q', findLoop r d = some q ∧ findLoop r' d = some q' ∧ Split a b q q' := by
        intro d
        rcases ih _ (by omega) hr.tr d rfl with h | ⟨q, q', e1, e2, e3⟩
        · exact .inl h
        · exact .inr ⟨q, q', e1, e2, hr.trans e3⟩
      rw [findLoop_some h1, findLoop_some h2]
      generalize (if t = "do".toList then d + 1 else d) = d'
      split
      · split
        · exact .inr ⟨_, _, rfl, rfl, hr⟩
        · exact next _
      · exact next _

theorem not_mem_takeWhile (p : Str) : '"' ∉ p.takeWhile (· ≠ '"') := by
  intro h
  have := List.all_takeWhile (p := (· ≠ '"')) (l := p)
  rw [List.all_eq_true] at this
  have := this _ h
  simp at this

theorem upTo_blank (p : Str) :
    (upTo p = none ∧ upTo (p ++ [' ']) = none) ∨
      ∃ t r r', upTo p = some (t, r) ∧ upTo (p ++ [' ']) = some (t, r') ∧ Tr r r' := by
  unfold upTo
  by_cases hq : '"' ∈ p
  · right
    rw [if_pos hq, if_pos (by simp [hq])]
    refine ⟨p.takeWhile (· ≠ '"'), (p.dropWhile (· ≠ '"')).drop 1,
      (p.dropWhile (· ≠ '"')).drop 1 ++ [' '], rfl, ?_, .inr rfl⟩
    congr 2
    · rw [List.takeWhile_append]
      split
      · rename_i hl
        have : p.takeWhile (· ≠ '"') = p :=
          List.IsPrefix.eq_of_length (List.takeWhile_prefix (l := p) (· ≠ '"')) hl
        rw [← this] at hq
        exact absurd hq (not_mem_takeWhile p)
      · rfl
    · rw [List.dropWhile_append]
      have hne : ¬ (p.dropWhile (· ≠ '"')).isEmpty = true := by
        rw [List.isEmpty_iff]
        intro he
        have := List.takeWhile_append_dropWhile (p := (· ≠ '"')) (l := p)
        rw [he, List.append_nil] at this
        rw [← this] at hq
        exact not_mem_takeWhile p hq
      rw [if_neg hne]
      cases hd : p.dropWhile (· ≠ '"') with
      | nil => rw [hd] at hne; exact absurd rfl hne
      | cons x y => rfl
  · left
    rw [if_neg hq, if_neg (by simp [hq])]
    exact ⟨rfl, rfl⟩

theorem afterBlank_other {c : Char} (h : c ≠ ' ') (a : Str) : afterBlank (c :: a) = c :: a := by
  unfold afterBlank
  split
  · rename_i p he
    injection he with he _
    exact absurd he h
  · rfl

theorem quoted_tr {a b : Str} (h : Tr a b) :
    (quoted a = none ∧ quoted b = none) ∨
      ∃ t r r', quoted a = some (t, r) ∧ quoted b = some (t, r') ∧ Tr r r' := by
  rcases h with rfl | rfl
  · cases hx : quoted b with
    | none => exact .inl ⟨rfl, rfl⟩
    | some p => exact .inr ⟨p.1, p.2, p.2, rfl, rfl, .inl rfl⟩
  · unfold quoted
    cases a with
    | nil => exact .inl ⟨rfl, rfl⟩
    | cons c a =>
      rw [List.cons_append]
      by_cases hc : c = ' '
      · subst hc
        exact upTo_blank a
      · rw [afterBlank_other hc, afterBlank_other hc]
        exact upTo_blank (c :: a)

/-- The same outcome, with texts that are the same but for a blank at the end. -/
inductive TrOut : Out (Str × St) → Out (Str × St) → Prop
  | ok {r r' : Str} {s : St} : Tr r r' → TrOut (.ok (r, s)) (.ok (r', s))
  | exit : TrOut .exit .exit
  | ub : TrOut .ub .ub
  | more : TrOut .more .more

theorem TrOut.bind {r r' : Str} (h : Tr r r') (x : Out St) :
    TrOut (do .ok (r, ← x)) (do .ok (r', ← x)) := by
  cases x with
  | ok s => exact .ok h
  | exit => exact .exit
  | ub => exact .ub
  | more => exact .more

theorem iterate_tr {f : Str → St → Out St} (hf : ∀ a b s, Tr a b → f b s = f a s) {a b : Str}
    (h : Tr a b) (n : Nat) (i : Int) (s : St) : iterate f b n i s = iterate f a n i s := by
  induction n generalizing i s with
  | zero => rfl
  | succ n ih =>
    rw [iterate, iterate, hf a b _ h]
    simp only [ih]

theorem eval_tr (E : Fl) {f : Str → St → Out St} (hf : ∀ a b s, Tr a b → f b s = f a s) {a b : Str}
    (h : Tr a b) (t : Str) (s : St) : TrOut (eval E f t a s) (eval E f t b s) := by
  unfold eval
  cases hb : builtin t with
  | none => exact TrOut.bind h _
  | some w =>
    cases w with
    | if' =>
      simp only
      split
      · exact .ok (skipUntil_tr _ h)
      · exact .ok h
    | else' => exact .ok (skipUntil_tr _ h)
    | comment => exact .ok (skipUntil_tr _ h)
    | do' =>
      simp only
      rcases findLoop_tr h 0 with ⟨h1, h2⟩ | ⟨r, r', h1, h2, hr⟩
      · rw [h1, h2]; exact .exit
      · rw [h1, h2]
        simp only
        rw [iterate_tr hf hr.take]
        exact TrOut.bind hr.tr _
    | dotq =>
      simp only
      rcases quoted_tr h with ⟨h1, h2⟩ | ⟨t, r, r', h1, h2, hr⟩
      · rw [h1, h2]; exact .exit
      · rw [h1, h2]
        exact TrOut.bind hr _
    | squote =>
      simp only
      rcases quoted_tr h with ⟨h1, h2⟩ | ⟨t, r, r', h1, h2, hr⟩
      · rw [h1, h2]; exact .exit
      · rw [h1, h2]
        simp only
        cases putChars t s with
        | ok s' => exact .ok hr
        | exit => exact .exit
        | ub => exact .ub
        | more => exact .more
    | var =>
      simp only
      rcases nextToken_tr h with ⟨h1, h2⟩ | ⟨t, r, r', h1, h2, hr⟩
      · rw [h1, h2]; exact .exit
      · rw [h1, h2]
        simp only
        cases named t (intText s.here) s with
        | ok s' => exact .ok hr.tr
        | exit => exact .exit
        | ub => exact .ub
        | more => exact .more
    | const =>
      simp only
      rcases nextToken_tr h with ⟨h1, h2⟩ | ⟨t, r, r', h1, h2, hr⟩
      · rw [h1, h2]; exact .exit
      · rw [h1, h2]
        exact TrOut.bind hr.tr _
    | _ => exact TrOut.bind h _

/-- A blank at the end makes no difference. -/
theorem run_tr (E : Fl) (k : Nat) : ∀ a b s, Tr a b → run E k b s = run E k a s := by
  induction k with
  | zero => intro a b s _; rfl
  | succ k ih =>
    intro a b s h
    rw [run, run]
    rcases nextToken_tr h with ⟨h1, h2⟩ | ⟨t, r, r', h1, h2, hr⟩
    · rw [h1, h2]
    · rw [h1, h2]
      simp only
      have := eval_tr E ih hr.tr t s
      generalize eval E (run E k) t r s = x at this
      generalize eval E (run E k) t r' s = y at this
      cases this with
      | ok h => exact ih _ _ _ h
      | exit => rfl
      | ub => rfl
      | more => rfl

end Verif.Forth
