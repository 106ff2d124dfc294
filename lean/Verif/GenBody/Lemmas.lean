import Verif.GenBody.Model
import Verif.Generics.Props

/-!
# Lemmas on replacing words and parts of names
-/

namespace Verif.GenBody

open Generics (Name Ty isIdent sanitize zText)
open Spec

variable {p c : Name}

/-! ### Words -/

/-- The character behind a text and what comes before. -/
def lastOr (prev : Option Char) (s : Name) : Option Char :=
  match s.getLast? with
  | some x => some x
  | none => prev

theorem lastOr_cons (prev : Option Char) (x : Char) (s : Name) :
    lastOr prev (x :: s) = lastOr (some x) s := by
  unfold lastOr
  cases s with
  | nil => rfl
  | cons y s => rw [List.getLast?_cons_cons]; simp [List.getLast?_cons]

theorem lastOr_append (prev : Option Char) (s t : Name) :
    lastOr prev (s ++ t) = lastOr (lastOr prev s) t := by
  induction s generalizing prev with
  | nil => rfl
  | cons x s ih => rw [List.cons_append, lastOr_cons, lastOr_cons, ih]

theorem rep_skip (s r : Name) (prev : Option Char) (b : Bool) :
    rep p c s.length prev b (s ++ r) = rep p c 0 (lastOr prev s) b r := by
  induction s generalizing prev with
  | nil => rfl
  | cons x s ih =>
    rw [List.length_cons, List.cons_append, rep, ih, lastOr_cons]

/-- A step that replaces nothing. -/
theorem rep_step {prev : Option Char} {b : Bool} {x : Char} {r : Name}
    (h : ¬ ((if x = '"' ∧ prev ≠ some '\\' then !b else b) = false ∧ p <+: x :: r ∧
      identAt prev = false ∧ identAt ((x :: r).drop p.length).head? = false)) :
    rep p c 0 prev b (x :: r) =
      x :: rep p c 0 (some x) (if x = '"' ∧ prev ≠ some '\\' then !b else b) r := by
  rw [rep]
  exact if_neg h

/-- the first character of a text in front of another -/
theorem head_append {s r : Name} (h : s ≠ []) : (s ++ r).head? = s.head? := by
  cases s with
  | nil => exact absurd rfl h
  | cons x s => rfl

theorem ident_noQuote {x : Char} (h : isIdent x = true) : x ≠ '"' ∧ x ≠ '\\' := by
  constructor <;> (rintro rfl; revert h; decide)

/-- A prefix of identifier characters of a text `s ++ r`, where `s` are identifier characters and
`r` begins with none, is one of `s`. -/
theorem prefix_word {p s r : Name} (hp : ∀ x ∈ p, isIdent x = true)
    (hr : identAt r.head? = false) (h : p <+: s ++ r) : p <+: s := by
  rcases Nat.lt_or_ge s.length p.length with hl | hl
  · exfalso
    obtain ⟨t, ht⟩ := h
    have hs : s <+: p := by
      apply List.prefix_of_prefix_length_le (l₃ := s ++ r) (List.prefix_append _ _) ⟨t, ht⟩
      omega
    obtain ⟨q, rfl⟩ := hs
    rw [List.append_assoc] at ht
    have := List.append_cancel_left ht
    cases q with
    | nil => simp at hl
    | cons y q =>
      rw [← this] at hr
      have hy := hp y (by simp)
      simp [identAt, hy] at hr
  · exact List.prefix_of_prefix_length_le h (List.prefix_append _ _) hl

/-- Inside a word nothing is replaced. -/
theorem rep_inside {s : Name} (hs : ∀ x ∈ s, isIdent x = true) {prev : Option Char}
    (hprev : identAt prev = true) (r : Name) :
    rep p c 0 prev false (s ++ r) = s ++ rep p c 0 (lastOr prev s) false r := by
  induction s generalizing prev with
  | nil => rfl
  | cons x s ih =>
    have hx := hs x (by simp)
    rw [List.cons_append, rep_step (fun h => by rw [h.2.2.1] at hprev; cases hprev),
      if_neg (fun h => (ident_noQuote hx).1 h.1), ih (fun y hy => hs y (by simp [hy])) (by simpa [identAt] using hx),
      lastOr_cons]
    rfl

/-- A word is replaced as a whole or stays. -/
theorem rep_word (hp : ∀ x ∈ p, isIdent x = true) {w : Name} (hw0 : w ≠ [])
    (hw : ∀ x ∈ w, isIdent x = true) {prev : Option Char} (hprev : identAt prev = false) {r : Name}
    (hr : identAt r.head? = false) :
    rep p c 0 prev false (w ++ r) =
      (if w = p then c else w) ++ rep p c 0 (lastOr prev w) false r := by
  cases w with
  | nil => exact absurd rfl hw0
  | cons x w =>
    have hx := hw x (by simp)
    by_cases he : x :: w = p
    · rw [if_pos he]
      have hl : p.length - 1 = w.length := by rw [← he]; simp
      have hd : ((x :: w) ++ r).drop p.length = r := by
        rw [← he]; exact List.drop_left' rfl
      have hd' : (x :: (w ++ r)).drop p.length = r := hd
      rw [List.cons_append, rep]
      simp only [if_neg (fun h : x = '"' ∧ prev ≠ some '\\' => (ident_noQuote hx).1 h.1)]
      rw [if_pos ⟨trivial, ⟨r, by rw [← he]; rfl⟩, hprev, by rw [hd']; exact hr⟩, hl, rep_skip,
        lastOr_cons]
    · rw [if_neg he, List.cons_append, rep_step, if_neg (fun h => (ident_noQuote hx).1 h.1),
        rep_inside (fun y hy => hw y (by simp [hy])) (by simpa [identAt] using hx),
        lastOr_cons]
      · rfl
      · rintro ⟨_, hpre, _, hnext⟩
        have h1 : p <+: (x :: w) := prefix_word hp hr (s := x :: w) hpre
        obtain ⟨q, hq⟩ := h1
        cases q with
        | nil => exact he (by rw [← hq]; simp)
        | cons y q =>
          have : (x :: (w ++ r)).drop p.length = y :: (q ++ r) := by
            rw [← List.cons_append, ← hq, List.append_assoc]; exact List.drop_left' rfl
          rw [this] at hnext
          have hy := hw y (by rw [← hq]; simp)
          simp [identAt, hy] at hnext

/-- Inside a string nothing is replaced up to its closing quote. -/
theorem rep_body {s : Name} (hs : Body s) {prev : Option Char} (r : Name) :
    rep p c 0 prev true (s ++ r) = s ++ rep p c 0 (lastOr prev s) true r := by
  induction hs generalizing prev with
  | nil => rfl
  | @esc x s h ih =>
    rw [List.cons_append, rep_step (by simp), if_neg (fun h => absurd h.1 (by decide)), List.cons_append, rep_step (by simp),
      if_neg (by simp), ih, lastOr_cons, lastOr_cons]
    rfl
  | @char x s hq _ h ih =>
    rw [List.cons_append, rep_step (by simp [hq]), if_neg (fun h => hq h.1), ih, lastOr_cons]
    rfl

/-- Inside a string without quotes nothing is replaced. -/
theorem rep_string (s : Name) (hs : '"' ∉ s) (prev : Option Char) : rep p c 0 prev true s = s := by
  induction s generalizing prev with
  | nil => rfl
  | cons x s ih =>
    have hx : x ≠ '"' := by rintro rfl; exact hs (by simp)
    rw [rep_step (by simp [hx]), if_neg (fun h => hx h.1), ih (fun h => hs (by simp [h]))]

/-- A string literal whose text does not end with a backslash stays as it is. -/
theorem rep_str (hp0 : p ≠ []) (hp : ∀ x ∈ p, isIdent x = true) {s : Name} (hs : Body s)
    (he : s.getLast? ≠ some '\\') {prev : Option Char} (hprev : prev ≠ some '\\') (r : Name) :
    rep p c 0 prev false ('"' :: s ++ ['"'] ++ r) = '"' :: s ++ ['"'] ++ rep p c 0 (some '"') false r := by
  have hpre : ∀ t : Name, ¬ p <+: '"' :: t := by
    rintro t ⟨q, hq⟩
    cases p with
    | nil => exact hp0 rfl
    | cons y p =>
      injection hq with h1 _
      exact (ident_noQuote (hp y (by simp))).1 h1
  simp only [List.cons_append, List.append_assoc, List.nil_append]
  rw [rep_step (fun h => hpre _ h.2.1), if_pos ⟨rfl, hprev⟩]
  simp only [Bool.not_false]
  rw [rep_body hs, rep_step (fun h => hpre _ h.2.1), if_pos]
  · rfl
  · refine ⟨rfl, ?_⟩
    unfold lastOr
    cases hl : s.getLast? with
    | none => simp
    | some y => intro h; exact he (by rw [hl]; exact h)

/-- One more character that is part of no word or string. -/
theorem rep_mark (hp0 : p ≠ []) (hp : ∀ x ∈ p, isIdent x = true) {x : Char} (hx : isIdent x = false)
    (hq : x ≠ '"') {prev : Option Char} {b : Bool} (r : Name) :
    rep p c 0 prev b (x :: r) = x :: rep p c 0 (some x) b r := by
  rw [rep_step, if_neg (fun h => hq h.1)]
  rintro ⟨_, ⟨q, h⟩, _⟩
  cases p with
  | nil => exact hp0 rfl
  | cons y p =>
    injection h with h1 _
    subst h1
    rw [hp y (by simp)] at hx; cases hx

/-- The strings of a text end without a backslash. -/
def Spec.Ends : Piece → Prop
  | .str b => b.getLast? ≠ some '\\'
  | _ => True

/-- put in for a word -/
def Spec.forWord (p : Name) (cs : List Piece) : Piece → List Piece
  | .word w => if w = p then cs else [.word w]
  | q => [q]

/-- the character in front of a piece -/
def Before (prev : Option Char) : Piece → Prop
  | .word _ => identAt prev = false
  | .str _ => prev ≠ some '\\'
  | .mark _ => True

theorem text_cons (a : Piece) (ps : List Piece) : text (a :: ps) = a.text ++ text ps := rfl

theorem text_append (ps qs : List Piece) : text (ps ++ qs) = text ps ++ text qs := by
  simp [text]

theorem code_tail {a : Piece} {ps : List Piece} (h : Code (a :: ps)) : Code ps := by
  cases h with
  | one => exact .nil
  | cons _ _ h => exact h

theorem code_wf {a : Piece} {ps : List Piece} (h : Code (a :: ps)) : a.WF := by
  cases h with
  | one h => exact h
  | cons h _ _ => exact h

/-- After a word comes no identifier character. -/
theorem code_after {w : Name} {ps : List Piece} (h : Code (.word w :: ps)) :
    identAt (text ps).head? = false := by
  cases h with
  | one => rfl
  | @cons _ b ps _ hn hc =>
    have hb := code_wf hc
    cases b with
    | word w => exact absurd hn (by simp [Next])
    | mark x => simpa [text, Piece.text, identAt] using hb.1
    | str s => rfl

theorem lastOr_ne {prev : Option Char} {s : Name} (h : s ≠ []) : lastOr prev s = s.getLast? := by
  unfold lastOr
  cases hl : s.getLast? with
  | none => exact absurd (List.getLast?_eq_none_iff.1 hl) h
  | some x => rfl

theorem ident_getLast {w : Name} (hw : ∀ x ∈ w, isIdent x = true) {x : Char} (h : w.getLast? = some x) :
    isIdent x = true := hw x (Generics.getLast?_mem' h)

/-- What comes after a piece finds the right character before it. -/
theorem code_before {a b : Piece} {ps : List Piece} (h : Code (a :: b :: ps)) (prev : Option Char) :
    Before (lastOr prev a.text) b := by
  cases h with
  | cons ha hn hc =>
    have hb := code_wf hc
    cases a with
    | word w =>
      cases b with
      | word _ => exact absurd hn (by simp [Next])
      | mark _ => trivial
      | str s =>
        show lastOr prev w ≠ some '\\'
        rw [lastOr_ne ha.1]
        intro hl
        exact (ident_noQuote (ident_getLast ha.2 hl)).2 rfl
    | mark x =>
      cases b with
      | word _ => exact ha.1
      | mark _ => trivial
      | str s => show some x ≠ some '\\'; intro e; injection e with e; exact hn e
    | str s =>
      have : lastOr prev (Piece.str s).text = some '"' := by
        rw [lastOr_ne (by simp [Piece.text])]
        show ('"' :: s ++ ['"']).getLast? = _
        rw [List.getLast?_append]; rfl
      rw [this]
      cases b with
      | word _ => exact rfl
      | mark _ => trivial
      | str _ => simp [Before]

theorem rep_text_aux (hp0 : p ≠ []) (hp : ∀ x ∈ p, isIdent x = true) {cs : List Piece}
    (hcs : text cs = c) {ps : List Piece} (h : Code ps) (he : ∀ a ∈ ps, Ends a) {prev : Option Char}
    (hb : ∀ a, ps.head? = some a → Before prev a) :
    rep p c 0 prev false (text ps) = text (ps.flatMap (forWord p cs)) := by
  induction ps generalizing prev with
  | nil => rfl
  | cons a ps ih =>
    have hw := code_wf h
    have hnext : ∀ b, ps.head? = some b → Before (lastOr prev a.text) b := by
      intro b hb'
      cases ps with
      | nil => cases hb'
      | cons b' ps => injection hb' with e; subst e; exact code_before h prev
    have ih' := ih (code_tail h) (fun b hb => he b (by simp [hb])) hnext
    rw [List.flatMap_cons, text_append, text_cons]
    have hb' := hb a rfl
    have he' := he a (by simp)
    cases a with
    | word w =>
      rw [show (Piece.word w).text = w from rfl] at ih' ⊢
      rw [rep_word hp hw.1 hw.2 hb' (code_after h), ih']
      simp only [forWord]
      by_cases e : w = p
      · rw [if_pos e, if_pos e, hcs]
      · rw [if_neg e, if_neg e]; simp [text, Piece.text]
    | mark x =>
      rw [show (Piece.mark x).text = [x] from rfl] at ih' ⊢
      rw [List.singleton_append, rep_mark hp0 hp hw.1 hw.2]
      rw [show lastOr prev [x] = some x from rfl] at ih'
      rw [ih']; rfl
    | str s =>
      have hlast : lastOr prev (Piece.str s).text = some '"' := by
        rw [lastOr_ne (by simp [Piece.text])]
        show ('"' :: s ++ ['"']).getLast? = _
        rw [List.getLast?_append]; rfl
      rw [hlast] at ih'
      rw [show (Piece.str s).text = '"' :: s ++ ['"'] from rfl, rep_str hp0 hp hw he' hb', ih']
      simp [forWord, text, Piece.text]

/-- The length of the result. -/
theorem rep_length (hp0 : p ≠ []) : ∀ (s : Name) (k : Nat) (prev : Option Char) (b : Bool),
    k ≤ s.length → ((rep p c k prev b s).length : Int) + k =
      s.length + count p k prev b s * ((c.length : Int) - p.length) := by
  have hpl := List.length_pos_iff.2 hp0
  intro s
  induction s with
  | nil =>
    intro k prev b hk
    have : k = 0 := by simpa using hk
    subst this
    simp [rep, count]
  | cons x s ih =>
    intro k prev b hk
    cases k with
    | succ k =>
      rw [rep, count]
      have := ih k (some x) b (by simpa using hk)
      rw [List.length_cons]
      omega
    | zero =>
      rw [rep, count]
      generalize (if x = '"' ∧ prev ≠ some '\\' then !b else b) = b'
      by_cases h : b' = false ∧ p <+: x :: s ∧ identAt prev = false ∧
          identAt ((x :: s).drop p.length).head? = false
      · rw [if_pos h, if_pos h]
        have hl := h.2.1.length_le
        rw [List.length_cons] at hl
        have := ih (p.length - 1) (some x) b' (by omega)
        rw [List.length_append, List.length_cons]
        generalize count p (p.length - 1) (some x) b' s = n at this ⊢
        have e : ((n + 1 : Nat) : Int) * ((c.length : Int) - p.length) =
            n * ((c.length : Int) - p.length) + (c.length - p.length) := by
          rw [Int.natCast_add, Int.add_mul]; simp
        rw [e]
        omega
      · rw [if_neg h, if_neg h]
        have := ih 0 (some x) b' (by omega)
        rw [List.length_cons, List.length_cons]
        omega

/-! ### Parts of names -/

theorem mangled_skip (s r : Name) (prev : Option Char) :
    mangledPart p c s.length prev (s ++ r) = mangledPart p c 0 (lastOr prev s) r := by
  induction s generalizing prev with
  | nil => rfl
  | cons x s ih => rw [List.length_cons, List.cons_append, mangledPart, ih, lastOr_cons]

/-- `prev` or `next` allow a part to begin or end -/
def Edge (o : Option Char) : Prop := o = some '_' ∨ identAt o = false

theorem mangled_step {prev : Option Char} {x : Char} {r : Name}
    (h : ¬ (p <+: x :: r ∧ Edge prev ∧ Edge ((x :: r).drop p.length).head? ∧
      (prev = some '_' ∨ ((x :: r).drop p.length).head? = some '_'))) :
    mangledPart p c 0 prev (x :: r) = x :: mangledPart p c 0 (some x) r := by
  rw [mangledPart]
  exact if_neg h

/-- identifier characters but `_` -/
def Plain (s : Name) : Prop := ∀ x ∈ s, isIdent x = true ∧ x ≠ '_'

theorem mangled_inside {s : Name} (hs : Plain s) {prev : Option Char}
    (hprev : ¬ Edge prev) (r : Name) :
    mangledPart p c 0 prev (s ++ r) = s ++ mangledPart p c 0 (lastOr prev s) r := by
  induction s generalizing prev with
  | nil => rfl
  | cons x s ih =>
    have hx := hs x (by simp)
    rw [List.cons_append, mangled_step (fun h => hprev h.2.1),
      ih (fun y hy => hs y (by simp [hy])), lastOr_cons]
    · rfl
    · rintro (h | h)
      · injection h with h; exact hx.2 h
      · simp [identAt, hx.1] at h

theorem prefix_seg {p s r : Name} (hp : Plain p)
    (hr : Edge r.head?) (h : p <+: s ++ r) : p <+: s := by
  rcases Nat.lt_or_ge s.length p.length with hl | hl
  · exfalso
    obtain ⟨t, ht⟩ := h
    have hs : s <+: p := by
      apply List.prefix_of_prefix_length_le (l₃ := s ++ r) (List.prefix_append _ _) ⟨t, ht⟩
      omega
    obtain ⟨q, rfl⟩ := hs
    rw [List.append_assoc] at ht
    have := List.append_cancel_left ht
    cases q with
    | nil => simp at hl
    | cons y q =>
      rw [← this] at hr
      have hy := hp y (by simp)
      rcases hr with h | h
      · injection h with h; exact hy.2 h
      · simp [identAt, hy.1] at h
  · exact List.prefix_of_prefix_length_le h (List.prefix_append _ _) hl

/-- One part of a name. -/
theorem mangled_seg (hp0 : p ≠ []) (hp : Plain p) {s : Name} (hs : Plain s) {prev : Option Char}
    (hprev : Edge prev) {r : Name} (hr : Edge r.head?) :
    mangledPart p c 0 prev (s ++ r) =
      (if s = p ∧ (prev = some '_' ∨ r.head? = some '_') then c else s) ++
        mangledPart p c 0 (lastOr prev s) r := by
  cases s with
  | nil =>
    rw [if_neg (fun h => hp0 h.1.symm)]
    rfl
  | cons x s =>
    have hx := hs x (by simp)
    by_cases he : x :: s = p
    · have hd : (x :: (s ++ r)).drop p.length = r := by
        rw [← he]; exact List.drop_left' (l₁ := x :: s) rfl
      by_cases hu : prev = some '_' ∨ r.head? = some '_'
      · have hl : p.length - 1 = s.length := by rw [← he]; simp
        rw [if_pos ⟨he, hu⟩, List.cons_append, mangledPart]
        rw [if_pos ⟨⟨r, by rw [← he]; rfl⟩, hprev, by rw [hd]; exact hr, by rw [hd]; exact hu⟩, hl,
          mangled_skip, lastOr_cons]
      · rw [if_neg (fun h => hu h.2), List.cons_append,
          mangled_step (fun h => hu (by rw [hd] at h; exact h.2.2.2)),
          mangled_inside (fun y hy => hs y (by simp [hy])), lastOr_cons]
        · rfl
        · rintro (h | h)
          · injection h with h; exact hx.2 h
          · simp [identAt, hx.1] at h
    · rw [if_neg (fun h => he h.1), List.cons_append, mangled_step,
          mangled_inside (fun y hy => hs y (by simp [hy])), lastOr_cons]
      · rfl
      · rintro (h | h)
        · injection h with h; exact hx.2 h
        · simp [identAt, hx.1] at h
      · rintro ⟨hpre, _, hnext, _⟩
        have h1 : p <+: (x :: s) := prefix_seg hp hr (s := x :: s) hpre
        obtain ⟨q, hq⟩ := h1
        cases q with
        | nil => exact he (by rw [← hq]; simp)
        | cons y q =>
          have : (x :: (s ++ r)).drop p.length = y :: (q ++ r) := by
            rw [← List.cons_append, ← hq, List.append_assoc]; exact List.drop_left' rfl
          rw [this] at hnext
          have hy := hs y (by rw [← hq]; simp)
          rcases hnext with h | h
          · injection h with h; exact hy.2 h
          · simp [identAt, hy.1] at h

theorem segs_ne (w : Name) : segs w ≠ [] := by
  cases w with
  | nil => simp [segs]
  | cons x w => rw [segs]; split; · simp
                split <;> simp

/-- A name is its first part, or that and `_` and a name. -/
theorem segs_cases (w : Name) : ('_' ∉ w ∧ segs w = [w]) ∨
    ∃ s t, w = s ++ '_' :: t ∧ '_' ∉ s ∧ segs w = s :: segs t := by
  induction w with
  | nil => exact .inl ⟨by simp, rfl⟩
  | cons x w ih =>
    by_cases hx : x = '_'
    · subst hx
      exact .inr ⟨[], w, rfl, by simp, by simp [segs]⟩
    · rcases ih with ⟨h1, h2⟩ | ⟨s, t, h1, h2, h3⟩
      · refine .inl ⟨?_, by simp [segs, hx, h2]⟩
        simp only [List.mem_cons, not_or]; exact ⟨fun e => hx e.symm, h1⟩
      · refine .inr ⟨x :: s, t, by rw [h1]; rfl, ?_, by simp [segs, hx, h3]⟩
        simp only [List.mem_cons, not_or]; exact ⟨fun e => hx e.symm, h2⟩

theorem segs_us {s : Name} (hs : '_' ∉ s) (t : Name) : segs (s ++ '_' :: t) = s :: segs t := by
  induction s with
  | nil => simp [segs]
  | cons x s ih =>
    have hx : x ≠ '_' := by rintro rfl; exact hs (by simp)
    rw [List.cons_append, segs, if_neg hx, ih (fun h => hs (by simp [h]))]

theorem segs_append (s t : Name) : segs (s ++ '_' :: t) = segs s ++ segs t := by
  induction s with
  | nil => simp [segs]
  | cons x s ih =>
    rw [List.cons_append, segs, segs, ih]
    by_cases hx : x = '_'
    · simp [hx]
    · rw [if_neg hx, if_neg hx]
      have := segs_ne s
      cases hs : segs s with
      | nil => exact absurd hs this
      | cons y ys => simp

theorem segs_self {s : Name} (hs : '_' ∉ s) : segs s = [s] := by
  rcases segs_cases s with ⟨_, h⟩ | ⟨a, b, h, _⟩
  · exact h
  · exact absurd (by rw [h]; simp) hs

/-- A name whose first part has a part before it. -/
theorem mangled_rest (hp0 : p ≠ []) (hp : Plain p) : ∀ (n : Nat) (w : Name), w.length ≤ n →
    (∀ x ∈ w, isIdent x = true) → ∀ r : Name, identAt r.head? = false →
    mangledPart p c 0 (some '_') (w ++ r) =
      join ((segs w).map fun s => if s = p then c else s) ++
        mangledPart p c 0 (lastOr (some '_') w) r := by
  intro n
  induction n with
  | zero =>
    intro w hl hw r hr
    have : w = [] := by simpa using hl
    subst this
    simp [segs, join, lastOr, Ne.symm hp0]
  | succ n ih =>
    intro w hl hw r hr
    rcases segs_cases w with ⟨h1, h2⟩ | ⟨s, t, h1, h2, h3⟩
    · rw [h2, mangled_seg hp0 hp (s := w) ?_ (.inl rfl) (.inr hr)]
      · simp [join]
      · intro x hx
        exact ⟨hw x hx, fun e => h1 (e ▸ hx)⟩
    · subst h1
      have hs : Plain s := fun x hx => ⟨hw x (by simp [hx]), fun e => h2 (e ▸ hx)⟩
      rw [h3, List.append_assoc, mangled_seg hp0 hp hs (.inl rfl) (.inl (by simp))]
      rw [List.cons_append, mangled_step, ih t (by simp at hl; omega) (fun x hx => hw x (by simp [hx])) r hr,
        lastOr_append, lastOr_cons]
      · have := segs_ne t
        cases ht : segs t with
        | nil => exact absurd ht this
        | cons y ys => simp [join]
      · rintro ⟨⟨q, hq⟩, _⟩
        cases p with
        | nil => exact hp0 rfl
        | cons y p =>
          injection hq with h _
          exact (hp y (by simp)).2 h

/-- A name. -/
theorem mangled_word (hp0 : p ≠ []) (hp : Plain p) {w : Name} (hw : ∀ x ∈ w, isIdent x = true)
    {prev : Option Char} (hprev : identAt prev = false) {r : Name} (hr : identAt r.head? = false) :
    mangledPart p c 0 prev (w ++ r) = inName p c w ++ mangledPart p c 0 (lastOr prev w) r := by
  have hpu : prev ≠ some '_' := by rintro rfl; revert hprev; decide
  have hru : r.head? ≠ some '_' := by intro h; rw [h] at hr; revert hr; decide
  rcases segs_cases w with ⟨h1, h2⟩ | ⟨s, t, h1, h2, h3⟩
  · rw [mangled_seg hp0 hp (s := w) ?_ (.inr hprev) (.inr hr), if_neg, inName, h2, if_neg (by simp)]
    · rintro ⟨_, h | h⟩
      · exact hpu h
      · exact hru h
    · intro x hx
      exact ⟨hw x hx, fun e => h1 (e ▸ hx)⟩
  · subst h1
    have hs : Plain s := fun x hx => ⟨hw x (by simp [hx]), fun e => h2 (e ▸ hx)⟩
    have hne := segs_ne t
    have h2' : 2 ≤ (s :: segs t).length := by
      have := List.length_pos_iff.2 hne
      rw [List.length_cons]; omega
    rw [List.append_assoc, mangled_seg hp0 hp hs (.inr hprev) (.inl (by simp)), List.cons_append,
      mangled_step, mangled_rest hp0 hp _ t (Nat.le_refl _) (fun x hx => hw x (by simp [hx])) r hr,
      inName, h3, if_pos h2', lastOr_append, lastOr_cons]
    · cases ht : segs t with
      | nil => exact absurd ht hne
      | cons y ys => simp [join]
    · rintro ⟨⟨q, hq⟩, _⟩
      cases p with
      | nil => exact hp0 rfl
      | cons y p =>
        injection hq with h _
        exact (hp y (by simp)).2 h

theorem mangled_mark (hp0 : p ≠ []) (hp : Plain p) {x : Char} (hx : isIdent x = false)
    {prev : Option Char} (r : Name) :
    mangledPart p c 0 prev (x :: r) = x :: mangledPart p c 0 (some x) r := by
  rw [mangled_step]
  rintro ⟨⟨q, hq⟩, _⟩
  cases p with
  | nil => exact hp0 rfl
  | cons y p =>
    injection hq with h _
    subst h
    rw [(hp y (by simp)).1] at hx; cases hx

/-! ### Whole texts -/

/-- names and other characters, names apart -/
inductive Loose : List Piece → Prop
  | nil : Loose []
  | word {w : Name} {ps : List Piece} : w ≠ [] → (∀ x ∈ w, isIdent x = true) →
      (∀ b, ps.head? = some b → ∃ x, b = .mark x) → Loose ps → Loose (.word w :: ps)
  | mark {x : Char} {ps : List Piece} : isIdent x = false → Loose ps → Loose (.mark x :: ps)

theorem tokens_text (s : Name) : text (tokens s) = s := by
  induction s with
  | nil => rfl
  | cons x s ih =>
    rw [tokens]
    by_cases hx : isIdent x = true
    · rw [if_pos hx]
      split
      · next w ts h => rw [h] at ih; rw [← ih]; rfl
      · next h => rw [text_cons, ih]; rfl
    · rw [if_neg hx, text_cons, ih]; rfl

theorem tokens_loose (s : Name) : Loose (tokens s) := by
  induction s with
  | nil => exact .nil
  | cons x s ih =>
    rw [tokens]
    by_cases hx : isIdent x = true
    · rw [if_pos hx]
      split
      · next w ts h =>
        rw [h] at ih
        cases ih with
        | word h1 h2 h3 h4 =>
          refine .word (by simp) ?_ h3 h4
          intro y hy
          rcases List.mem_cons.1 hy with rfl | hy
          · exact hx
          · exact h2 y hy
      · next h =>
        refine .word (by simp) (by simpa using hx) ?_ ih
        intro b hb
        cases ht : tokens s with
        | nil => rw [ht] at hb; cases hb
        | cons a ts =>
          rw [ht] at hb ih h
          injection hb with hb
          subst hb
          cases ih with
          | word => exact absurd rfl (h _ _)
          | mark => exact ⟨_, rfl⟩
    · rw [if_neg hx]
      exact .mark (by simpa using hx) ih

theorem tokens_word {w : Name} (hw0 : w ≠ []) (hw : ∀ x ∈ w, isIdent x = true) {ts : List Piece}
    (ht : ∀ b, ts.head? = some b → ∃ x, b = .mark x) (r : Name) (hr : tokens r = ts) :
    tokens (w ++ r) = .word w :: ts := by
  induction w with
  | nil => exact absurd rfl hw0
  | cons x w ih =>
    rw [List.cons_append, tokens, if_pos (hw x (by simp))]
    by_cases h0 : w = []
    · subst h0
      rw [List.nil_append, hr]
      split
      · obtain ⟨y, hy⟩ := ht _ rfl
        cases hy
      · rfl
    · rw [ih h0 (fun y hy => hw y (by simp [hy]))]

/-- A text is read in one way. -/
theorem tokens_unique {ps : List Piece} (h : Loose ps) : tokens (text ps) = ps := by
  induction h with
  | nil => rfl
  | @word w ps h1 h2 h3 _ ih => rw [text_cons]; exact tokens_word h1 h2 h3 _ ih
  | @mark x ps hx _ ih =>
    rw [text_cons, show (Piece.mark x).text = [x] from rfl, List.singleton_append, tokens,
      if_neg (by simp [hx]), ih]

/-- put in for the parts of a name -/
def Spec.inPiece (p c : Name) : Piece → Piece
  | .word w => .word (inName p c w)
  | q => q

theorem mangled_loose (hp0 : p ≠ []) (hp : Plain p) {ps : List Piece} (h : Loose ps)
    {prev : Option Char} (hb : ∀ w, ps.head? = some (.word w) → identAt prev = false) :
    mangledPart p c 0 prev (text ps) = text (ps.map (inPiece p c)) := by
  induction h generalizing prev with
  | nil => rfl
  | @word w ps h1 h2 h3 h4 ih =>
    have hr : identAt (text ps).head? = false := by
      cases ps with
      | nil => rfl
      | cons b ps =>
        obtain ⟨x, rfl⟩ := h3 b rfl
        cases h4 with
        | mark hx _ => exact hx
    rw [text_cons, show (Piece.word w).text = w from rfl, mangled_word hp0 hp h2 (hb w rfl) hr, ih]
    · rfl
    · intro v hv
      obtain ⟨x, hx⟩ := h3 _ hv
      cases hx
  | @mark x ps hx _ ih =>
    rw [text_cons, show (Piece.mark x).text = [x] from rfl, List.singleton_append,
      mangled_mark hp0 hp hx, ih (prev := some x) (fun _ _ => hx)]
    rfl

/-- the pieces of a text as names and other characters -/
def flat : Piece → List Piece
  | .str b => .mark '"' :: tokens b ++ [.mark '"']
  | q => [q]

theorem loose_append {ps qs : List Piece} (h : Loose ps) (hq : Loose qs)
    (hn : ∀ x, qs.head? = some x → (∃ c, x = .mark c) ∨ ∀ w, ps.getLast? ≠ some (.word w)) :
    Loose (ps ++ qs) := by
  induction h with
  | nil => exact hq
  | @word w ps h1 h2 h3 h4 ih =>
    refine .word h1 h2 ?_ (ih ?_)
    · intro b hb
      cases ps with
      | nil =>
        rcases hn b hb with h | h
        · exact h
        · exact absurd rfl (h w)
      | cons a ps => exact h3 b hb
    · intro x hx
      rcases hn x hx with h | h
      · exact .inl h
      · right
        intro v hv
        apply h v
        cases ps with
        | nil => cases hv
        | cons a ps => rw [List.getLast?_cons_cons]; exact hv
  | @mark y ps hy h4 ih =>
    refine .mark hy (ih ?_)
    intro x hx
    rcases hn x hx with h | h
    · exact .inl h
    · right
      intro v hv
      apply h v
      cases ps with
      | nil => cases hv
      | cons a ps => rw [List.getLast?_cons_cons]; exact hv

theorem flat_loose {a : Piece} (h : a.WF) : Loose (flat a) := by
  cases a with
  | word w => exact .word h.1 h.2 (by simp) .nil
  | mark x => exact .mark h.1 .nil
  | str b =>
    refine .mark (by decide) (loose_append (tokens_loose b) (.mark (by decide) .nil) ?_)
    intro x hx
    injection hx with hx
    exact .inl ⟨_, hx.symm⟩

theorem flat_text (a : Piece) : text (flat a) = a.text := by
  cases a with
  | str b =>
    show text (.mark '"' :: (tokens b ++ [.mark '"'])) = '"' :: b ++ ['"']
    rw [text_cons, text_append, tokens_text]; rfl
  | _ => simp [flat, text, Piece.text]

theorem flat_all_text (ps : List Piece) : text (ps.flatMap flat) = text ps := by
  induction ps with
  | nil => rfl
  | cons a ps ih => rw [List.flatMap_cons, text_append, ih, flat_text, text_cons]

theorem flat_ne (a : Piece) : flat a ≠ [] := by cases a <;> simp [flat]

theorem code_loose {ps : List Piece} (h : Code ps) : Loose (ps.flatMap flat) := by
  induction h with
  | nil => exact .nil
  | @one a ha => simpa using flat_loose ha
  | @cons a b ps ha hn hc ih =>
    rw [List.flatMap_cons]
    refine loose_append (flat_loose ha) ih ?_
    intro x hx
    have hx' : (flat b).head? = some x := by
      rw [List.flatMap_cons] at hx
      cases hb : flat b with
      | nil => exact absurd hb (flat_ne b)
      | cons y ys => rw [hb] at hx; exact hx
    cases b with
    | word w =>
      right
      intro v hv
      cases a with
      | word u => exact hn
      | mark y => simp [flat] at hv
      | str s =>
        have : (flat (.str s)).getLast? = some (.mark '"') := by
          show (Piece.mark '"' :: tokens s ++ [Piece.mark '"']).getLast? = _
          rw [List.getLast?_append]; rfl
        rw [this] at hv; cases hv
    | mark y => left; exact ⟨y, by simpa [flat] using hx'.symm⟩
    | str s => left; exact ⟨'"', by simpa [flat] using hx'.symm⟩

theorem join_segs (w : Name) : join (segs w) = w := by
  induction w with
  | nil => rfl
  | cons x w ih =>
    rw [segs]
    have := segs_ne w
    cases hs : segs w with
    | nil => exact absurd hs this
    | cons y ys =>
      rw [hs] at ih
      by_cases hx : x = '_'
      · rw [if_pos hx, join]
        · rw [ih, hx]; rfl
        · simp
      · rw [if_neg hx]
        cases ys with
        | nil => simp [join] at ih ⊢; exact ih
        | cons z zs => simp [join] at ih ⊢; exact ih

theorem inName_apart {w : Name} (h : Apart p w) : inName p c w = w := by
  unfold inName
  by_cases h2 : 2 ≤ (segs w).length
  · rw [if_pos h2]
    have : (segs w).map (fun s => if s = p then c else s) = segs w := by
      conv => rhs; rw [← List.map_id (segs w)]
      apply List.map_congr_left
      intro s hs
      rw [if_neg]
      · rfl
      · rintro rfl; exact h h2 hs
    rw [this, join_segs]
  · rw [if_neg h2]

/-- put in for every part of a name -/
def inAll (p c w : Name) : Name := join ((segs w).map fun s => if s = p then c else s)

theorem join_append {xs ys : List Name} (hx : xs ≠ []) (hy : ys ≠ []) :
    join (xs ++ ys) = join xs ++ '_' :: join ys := by
  induction xs with
  | nil => exact absurd rfl hx
  | cons x xs ih =>
    cases xs with
    | nil =>
      cases ys with
      | nil => exact absurd rfl hy
      | cons y ys => rfl
    | cons x' xs =>
      have := ih (by simp)
      simp only [List.cons_append, join] at this ⊢
      rw [this]; simp

theorem inAll_us (s t : Name) : inAll p c (s ++ '_' :: t) = inAll p c s ++ '_' :: inAll p c t := by
  unfold inAll
  rw [segs_append, List.map_append, join_append]
  · simpa using segs_ne s
  · simpa using segs_ne t

theorem inAll_same {w : Name} (h : p ∉ segs w) : inAll p c w = w := by
  unfold inAll
  have : (segs w).map (fun s => if s = p then c else s) = segs w := by
    conv => rhs; rw [← List.map_id (segs w)]
    apply List.map_congr_left
    intro s hs
    rw [if_neg]
    · rfl
    · rintro rfl; exact h hs
  rw [this, join_segs]

theorem inAll_self (h : '_' ∉ p) : inAll p c p = c := by
  unfold inAll
  rw [segs_self h]
  simp [join]

theorem inName_us (s t : Name) : inName p c (s ++ '_' :: t) = inAll p c (s ++ '_' :: t) := by
  unfold inName inAll
  rw [if_pos]
  rw [segs_append, List.length_append]
  have := List.length_pos_iff.2 (segs_ne s)
  have := List.length_pos_iff.2 (segs_ne t)
  omega

theorem sanitize_length (s : Name) : (sanitize s).length ≤ 3 * s.length := by
  have h : ∀ s : Name, (s.flatMap Generics.sanitizeChar).length ≤ 3 * s.length := by
    intro s
    induction s with
    | nil => simp
    | cons x s ih =>
      rw [List.flatMap_cons, List.length_append, List.length_cons]
      have : (Generics.sanitizeChar x).length ≤ 3 := by
        unfold Generics.sanitizeChar
        repeat' split
        all_goals simp
      omega
  unfold sanitize
  split
  · have := h (s.drop 7)
    rw [List.length_drop] at this
    omega
  · exact h s

/-! ### Code with words put in -/

theorem code_append {xs ys : List Piece} (hx : Code xs) (hy : Code ys)
    (h : ∀ a b, xs.getLast? = some a → ys.head? = some b → Next a b) : Code (xs ++ ys) := by
  induction hx with
  | nil => exact hy
  | @one a ha =>
    cases ys with
    | nil => exact .one ha
    | cons b ys => exact .cons ha (h a b rfl rfl) hy
  | @cons a b ps ha hn hc ih =>
    refine .cons ha hn (ih ?_)
    intro a' b' h1 h2
    exact h a' b' (by rw [List.getLast?_cons_cons]; exact h1) h2

/-- pieces that can take the place of a word -/
structure Spec.Fill (cs : List Piece) : Prop where
  code : Code cs
  ne : cs ≠ []
  plain : ∀ a ∈ cs, (∃ w, a = .word w) ∨ ∃ x, a = .mark x ∧ x ≠ '\\'

theorem fill_word {w : Name} (h0 : w ≠ []) (h : ∀ x ∈ w, isIdent x = true) : Fill [.word w] :=
  ⟨.one ⟨h0, h⟩, by simp, by simp⟩

theorem forWord_head {cs : List Piece} (hc : Fill cs) (p : Name) (a : Piece) :
    ∃ b, (forWord p cs a).head? = some b ∧ ((∃ w, a = .word w ∧ w = p ∧ cs.head? = some b) ∨ b = a) := by
  cases a with
  | word w =>
    simp only [forWord]
    by_cases e : w = p
    · rw [if_pos e]
      cases hcs : cs with
      | nil => exact absurd hcs hc.ne
      | cons b cs => exact ⟨b, rfl, .inl ⟨w, rfl, e, rfl⟩⟩
    · rw [if_neg e]; exact ⟨_, rfl, .inr rfl⟩
  | mark x => exact ⟨_, rfl, .inr rfl⟩
  | str s => exact ⟨_, rfl, .inr rfl⟩

theorem forWord_code {cs : List Piece} (hc : Fill cs) {ps : List Piece} (h : Code ps) :
    Code (ps.flatMap (forWord p cs)) := by
  have hone : ∀ {a : Piece}, a.WF → Code (forWord p cs a) := by
    intro a ha
    cases a with
    | word w =>
      simp only [forWord]
      by_cases e : w = p
      · rw [if_pos e]; exact hc.code
      · rw [if_neg e]; exact .one ha
    | mark x => exact .one ha
    | str s => exact .one ha
  induction h with
  | nil => exact .nil
  | @one a ha => simpa using hone ha
  | @cons a b ps ha hn hcd ih =>
    rw [List.flatMap_cons]
    refine code_append (hone ha) ih ?_
    intro x y hx hy
    have hy' : (forWord p cs b).head? = some y := by
      obtain ⟨z, hz, _⟩ := forWord_head hc p b
      rw [List.flatMap_cons] at hy
      cases hb : forWord p cs b with
      | nil => rw [hb] at hz; cases hz
      | cons u us => rw [hb] at hy; exact hy
    -- what the last piece of the one and the first of the other are
    obtain ⟨z, hz, hzb⟩ := forWord_head hc p b
    rw [hy'] at hz
    injection hz with hz
    subst hz
    cases a with
    | word w =>
      -- then b is no word
      have hyb : y = b := by
        rcases hzb with ⟨v, hv, _⟩ | h
        · subst hv; exact absurd hn (by simp [Next])
        · exact h
      subst hyb
      simp only [forWord] at hx
      by_cases e : w = p
      · rw [if_pos e] at hx
        have hm := List.mem_of_getLast? hx
        rcases hc.plain x hm with ⟨v, rfl⟩ | ⟨v, rfl, hv⟩
        · cases y with
          | word _ => exact absurd hn (by simp [Next])
          | mark _ => trivial
          | str _ => trivial
        · cases y with
          | word _ => exact absurd hn (by simp [Next])
          | mark _ => trivial
          | str _ => exact hv
      · rw [if_neg e] at hx
        have : x = .word w := by simpa using hx.symm
        subst this; exact hn
    | mark m =>
      have : x = .mark m := by simpa [forWord] using hx.symm
      subst this
      rcases hzb with ⟨v, rfl, _, hcs⟩ | rfl
      · rcases hc.plain y (List.mem_of_mem_head? hcs) with ⟨v, rfl⟩ | ⟨v, rfl, hv⟩ <;> trivial
      · exact hn
    | str s =>
      have : x = .str s := by simpa [forWord] using hx.symm
      subst this
      cases y <;> trivial

theorem forWord_ends {cs : List Piece} (hc : Fill cs) {ps : List Piece} (h : ∀ a ∈ ps, Ends a) :
    ∀ a ∈ ps.flatMap (forWord p cs), Ends a := by
  intro a ha
  obtain ⟨b, hb, hab⟩ := List.mem_flatMap.1 ha
  cases b with
  | word w =>
    simp only [forWord] at hab
    by_cases e : w = p
    · rw [if_pos e] at hab
      rcases hc.plain a hab with ⟨v, rfl⟩ | ⟨v, rfl, _⟩ <;> trivial
    · rw [if_neg e] at hab
      have : a = .word w := by simpa using hab
      subst this; trivial
  | mark x =>
    have : a = .mark x := by simpa [forWord] using hab
    subst this; trivial
  | str s =>
    have : a = .str s := by simpa [forWord] using hab
    subst this; exact h _ hb

end Verif.GenBody
