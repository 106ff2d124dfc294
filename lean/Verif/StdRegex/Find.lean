import Verif.StdRegex.Model

/-!
# C171: finding with regular expressions

`Regex::find`, `find_at`, `match`, `match_full`, `match_at`, `Match::as_string`, `Match::end` and the default flags (std/regex.zc:19-112). The library
underneath (TRE) is a parameter: `exec t` are the offsets that `tre_regexec` reports for the text `t`. What an expression matches may depend on what is in
front of the word and behind it (`^`, `$`, `\b`).

Simplified: offsets are natural numbers, not `int`; the expression was compiled without an error (`preg != 0`).
-/

namespace Verif.StdRegex

open Verif.Str (Byte)

/-- `Match` (std/regex.zc:19-23); `text` is the text behind the pointer. -/
structure Match where
  text : List Byte
  start : Nat
  len : Nat
  deriving DecidableEq, Repr

/-- `Match::as_string` (std/regex.zc:35-40); `none`: it reads past the end of the text and its final zero. -/
def Match.asString (m : Match) : Option (List Byte) :=
  if m.start + m.len ≤ m.text.length + 1 then some ((m.text.drop m.start).take m.len) else none

/-- `Match::end` (std/regex.zc:42-44) -/
def Match.end' (m : Match) : Nat := m.start + m.len

/-- `Regex::match` (std/regex.zc:72-75), `Regex::is_match` (87-89) -/
def isMatch (exec : List Byte → Option (Nat × Nat)) (t : List Byte) : Bool := (exec t).isSome

/-- `Regex::match_full` (std/regex.zc:77-79) -/
def matchFull (exec : List Byte → Option (Nat × Nat)) (t : List Byte) : Bool := isMatch exec t

/-- `Regex::match_at` (std/regex.zc:81-86) -/
def matchAt (exec : List Byte → Option (Nat × Nat)) (t : List Byte) (offset : Nat) : Bool :=
  if offset > t.length then false else (exec (t.drop offset)).isSome

/-- `Regex::find` (std/regex.zc:92-104) -/
def find (exec : List Byte → Option (Nat × Nat)) (t : List Byte) : Option Match :=
  match exec t with
  | some (s, e) => some ⟨t, s, e - s⟩
  | none => none

/-- `Regex::find_at` (std/regex.zc:106-112) -/
def findAt (exec : List Byte → Option (Nat × Nat)) (t : List Byte) (start : Nat) : Option Match :=
  if start ≥ t.length then none else find exec (t.drop start)

/-- `Regex::compile` (std/regex.zc:54-56): the flags `1 | 2`, `REG_EXTENDED` and `REG_ICASE` (std/third-party/tre/include/tre.h:142-143). -/
def defaultFlags : Nat := 1 ||| 2

/-! ## specification -/

namespace Spec

/-- What an expression matches: `P a w z` says that `w` matches between `a` and `z`. -/
abbrev Pat := List Byte → List Byte → List Byte → Prop

/-- There is a match from `s` to `e`. -/
def MatchAt (P : Pat) (t : List Byte) (s e : Nat) : Prop := s ≤ e ∧ e ≤ t.length ∧ P (t.take s) ((t.drop s).take (e - s)) (t.drop e)

/-- The first match that begins at `start` or later. -/
def FirstFrom (P : Pat) (t : List Byte) (start s e : Nat) : Prop :=
  start ≤ s ∧ MatchAt P t s e ∧ ∀ s' e', start ≤ s' → MatchAt P t s' e' → s ≤ s'

/-- The library finds the first match in the text it is given. -/
structure Finds (exec : List Byte → Option (Nat × Nat)) (P : Pat) : Prop where
  some : ∀ {t s e}, exec t = some (s, e) → FirstFrom P t 0 s e
  none : ∀ {t}, exec t = none → ∀ s e, ¬ MatchAt P t s e

/-- An expression that does not look at what is around the word. -/
def Free (P : Pat) : Prop := ∀ a w z a' z', P a w z → P a' w z'

/-- A letter of the other case: `x` and `X` (ASCII). -/
def fold (b : Byte) : Byte := if 65 ≤ b ∧ b ≤ 90 then b + 32 else b

/-- The expression, with the flag `REG_ICASE` (2) or without it. -/
def withFlags (flags : Nat) (L : List Byte → Prop) : Pat := fun _ w _ =>
  if flags &&& 2 = 2 then ∃ u, u.map fold = w.map fold ∧ L u else L w

end Spec
open Spec

/-! ## what holds -/

/-- **C171 (find)**: the first match, with its text; none if there is none. -/
theorem find_ok {exec : List Byte → Option (Nat × Nat)} {P : Pat} (F : Finds exec P) (t : List Byte) :
    (∀ m, find exec t = some m → m.text = t ∧ FirstFrom P t 0 m.start m.end' ∧
      ∃ w, m.asString = some w ∧ t = t.take m.start ++ (w ++ t.drop m.end') ∧ P (t.take m.start) w (t.drop m.end')) ∧
    (find exec t = none → ∀ s e, ¬ MatchAt P t s e) := by
  rw [find]
  cases x : exec t with
  | none => exact ⟨fun m e => (nomatch e), fun _ => F.none x⟩
  | some q =>
    obtain ⟨s, e⟩ := q
    refine ⟨fun m h => ?_, fun h => (nomatch h)⟩
    simp only [Option.some.injEq] at h
    subst h
    have ff := F.some x
    obtain ⟨h1, ⟨h2, h3, h4⟩, h5⟩ := ff
    have es : s + (e - s) = e := by omega
    refine ⟨rfl, ⟨h1, ?_, ?_⟩, (t.drop s).take (e - s), ?_, ?_, ?_⟩
    · show MatchAt P t s (s + (e - s))
      rw [es]; exact ⟨h2, h3, h4⟩
    · intro s' e' a b; exact h5 s' e' a b
    · rw [Match.asString, if_pos (by simp only; omega)]
    · show t = t.take s ++ ((t.drop s).take (e - s) ++ t.drop (s + (e - s)))
      have : t.drop (s + (e - s)) = (t.drop s).drop (e - s) := by rw [List.drop_drop]
      rw [this, List.take_append_drop, List.take_append_drop]
    · show P (t.take s) _ (t.drop (s + (e - s)))
      rw [es]; exact h4

/-- **C171 (match)**: true exactly if something in the text matches. -/
theorem isMatch_ok {exec : List Byte → Option (Nat × Nat)} {P : Pat} (F : Finds exec P) (t : List Byte) :
    isMatch exec t = true ↔ ∃ s e, MatchAt P t s e := by
  rw [isMatch]
  cases x : exec t with
  | none => exact ⟨fun h => (nomatch h), fun ⟨s, e, h⟩ => absurd h (F.none x s e)⟩
  | some q => exact ⟨fun _ => ⟨q.1, q.2, (F.some (s := q.1) (e := q.2) x).2.1⟩, fun _ => rfl⟩

theorem matchAt_drop {P : Pat} (fr : Free P) {t : List Byte} {k s e : Nat} (hk : k ≤ t.length) :
    MatchAt P (t.drop k) s e ↔ MatchAt P t (k + s) (k + e) := by
  simp only [MatchAt, List.length_drop, List.drop_drop]
  have e1 : k + e - (k + s) = e - s := by omega
  rw [e1]
  constructor
  · rintro ⟨a, b, c⟩; exact ⟨by omega, by omega, fr _ _ _ _ _ c⟩
  · rintro ⟨a, b, c⟩; exact ⟨by omega, by omega, fr _ _ _ _ _ c⟩

/-- **C171 (find_at), in part**: for expressions that do not look around, and a start in front of the end of the text, it is the first match from there on;
its position is counted from the start. -/
theorem findAt_partial {exec : List Byte → Option (Nat × Nat)} {P : Pat} (F : Finds exec P) (fr : Free P) {t : List Byte} {k : Nat} (hk : k < t.length) :
    (∀ m, findAt exec t k = some m → m.text = t.drop k ∧ FirstFrom P t k (k + m.start) (k + m.end') ∧
      m.asString = some ((t.drop (k + m.start)).take m.len)) ∧
    (findAt exec t k = none → ∀ s e, k ≤ s → ¬ MatchAt P t s e) := by
  obtain ⟨f1, f2⟩ := find_ok F (t.drop k)
  rw [findAt, if_neg (by omega)]
  refine ⟨fun m h => ?_, fun h s e ks ma => ?_⟩
  · obtain ⟨a, ⟨b1, b2, b3⟩, w, c1, _, _⟩ := f1 m h
    refine ⟨a, ⟨by omega, (matchAt_drop fr (by omega)).mp b2, fun s' e' ks ma => ?_⟩, ?_⟩
    · have se : s' ≤ e' := ma.1
      have := b3 (s' - k) (e' - k) (by omega) ((matchAt_drop fr (by omega)).mpr (by
        rw [show k + (s' - k) = s' by omega, show k + (e' - k) = e' by omega]; exact ma))
      omega
    · rw [Match.asString] at c1 ⊢
      by_cases c : m.start + m.len ≤ m.text.length + 1
      · rw [if_pos c, a, List.drop_drop]
      · rw [if_neg c] at c1; cases c1
  · have se : s ≤ e := ma.1
    exact f2 h (s - k) (e - k) ((matchAt_drop fr (by omega)).mpr (by
      rw [show k + (s - k) = s by omega, show k + (e - k) = e by omega]; exact ma))

/-- **C171 (match_at), in part**: for expressions that do not look around, whether something matches from there on. -/
theorem matchAt_partial {exec : List Byte → Option (Nat × Nat)} {P : Pat} (F : Finds exec P) (fr : Free P) {t : List Byte} {k : Nat} :
    matchAt exec t k = true ↔ k ≤ t.length ∧ ∃ s e, k ≤ s ∧ MatchAt P t s e := by
  rw [matchAt]
  by_cases c : k > t.length
  · rw [if_pos c]
    exact ⟨fun h => (nomatch h), fun h => by omega⟩
  · rw [if_neg c]
    show isMatch exec (t.drop k) = true ↔ _
    rw [isMatch_ok F]
    constructor
    · rintro ⟨s, e, ma⟩
      exact ⟨by omega, k + s, k + e, by omega, (matchAt_drop fr (by omega)).mp ma⟩
    · rintro ⟨_, s, e, ks, ma⟩
      have se : s ≤ e := ma.1
      exact ⟨s - k, e - k, (matchAt_drop fr (by omega)).mpr (by
        rw [show k + (s - k) = s by omega, show k + (e - k) = e by omega]; exact ma)⟩

/-! ## where it goes wrong -/

/-- **C171 fails**: `match_full` is true for every text that contains a match, also if the text itself does not match. -/
theorem matchFull_violated {exec : List Byte → Option (Nat × Nat)} {P : Pat} (F : Finds exec P) {t : List Byte} {s e : Nat} (m : MatchAt P t s e)
    (_no : ¬ P [] t []) : matchFull exec t = true := (isMatch_ok F t).mpr ⟨s, e, m⟩

/-- **C171 fails**: at the end of the text `find_at` finds nothing, even if the empty word matches there (`match_at` says that it does). -/
theorem findAt_end_violated {exec : List Byte → Option (Nat × Nat)} {P : Pat} (F : Finds exec P) (t : List Byte) (m : P [] [] []) :
    findAt exec t t.length = none ∧ matchAt exec t t.length = true := by
  refine ⟨by rw [findAt, if_pos (Nat.le_refl _)], ?_⟩
  rw [matchAt, if_neg (by omega), List.drop_length]
  exact (isMatch_ok F []).mpr ⟨0, 0, by simp [MatchAt, m]⟩

/-- **C171 fails**: the position that `find_at` returns is counted from where the search began; for every start but 0 it is not the position in the text,
and neither is `end`. -/
theorem findAt_position_violated {exec : List Byte → Option (Nat × Nat)} {P : Pat} (F : Finds exec P) (fr : Free P) {t : List Byte} {k : Nat}
    (k0 : 0 < k) (hk : k < t.length) {m : Match} (h : findAt exec t k = some m) : ∀ e, ¬ FirstFrom P t k m.start e := by
  intro e ff
  obtain ⟨_, ⟨_, _, b⟩, _⟩ := (findAt_partial F fr hk).1 m h
  have := b m.start e ff.1 ff.2.1
  omega

/-- The expression `^w`. -/
def Anchored (w : List Byte) : Pat := fun a x _ => a = [] ∧ x = w

/-- **C171 fails**: an expression that begins with `^` matches in the middle of the text: `find_at` and `match_at` take the start for the beginning. -/
theorem anchor_violated {exec : List Byte → Option (Nat × Nat)} {w : List Byte} (F : Finds exec (Anchored w)) (a z : List Byte) (ha : a ≠ []) (hw : w ≠ []) :
    matchAt exec (a ++ (w ++ z)) a.length = true ∧ (findAt exec (a ++ (w ++ z)) a.length).isSome ∧
      ∀ s e, a.length ≤ s → ¬ MatchAt (Anchored w) (a ++ (w ++ z)) s e := by
  have ma : MatchAt (Anchored w) (w ++ z) 0 w.length := by
    refine ⟨by omega, by simp, ?_⟩
    simp [Anchored]
  have im := (isMatch_ok F (w ++ z)).mpr ⟨0, w.length, ma⟩
  have dr : (a ++ (w ++ z)).drop a.length = w ++ z := by simp
  have wl : 0 < w.length := List.length_pos_iff.mpr hw
  refine ⟨?_, ?_, ?_⟩
  · rw [matchAt, if_neg (by simp), dr]; exact im
  · rw [findAt, if_neg (by simp; omega), dr, find]
    rw [isMatch] at im
    cases x : exec (w ++ z) with
    | none => rw [x] at im; cases im
    | some q => rfl
  · rintro s e hs ⟨h1, h2, h3, _⟩
    have al : 0 < a.length := List.length_pos_iff.mpr ha
    have := congrArg List.length h3
    simp only [List.length_take, List.length_append, List.length_nil] at this
    simp only [List.length_append] at h2
    omega

/-- **C171 fails**: an expression compiled without flags ignores case: it matches every text that agrees with a word of the expression up to the case of
letters. -/
theorem case_violated {exec : List Byte → Option (Nat × Nat)} {L : List Byte → Prop} (F : Finds exec (withFlags defaultFlags L)) {u t : List Byte}
    (hu : L u) (ht : t.map fold = u.map fold) : isMatch exec t = true := by
  refine (isMatch_ok F t).mpr ⟨0, t.length, by omega, Nat.le_refl _, ?_⟩
  show if defaultFlags &&& 2 = 2 then _ else _
  rw [if_pos (by decide)]
  exact ⟨u, by simp [ht], hu⟩

/-! ## an example -/

/-- A search for the letter `x`. -/
def findOne (x : Byte) (t : List Byte) : Option (Nat × Nat) := (t.findIdx? (· == x)).map fun i => (i, i + 1)

/-- The expression `x`. -/
def Letter (x : Byte) : Pat := fun _ w _ => w = [x]

theorem one_free (x : Byte) : Free (Letter x) := fun _ _ _ _ _ h => h

theorem one_at {x : Byte} {t : List Byte} {s e : Nat} : MatchAt (Letter x) t s e ↔ t[s]? = some x ∧ e = s + 1 := by
  simp only [MatchAt, Letter]
  constructor
  · rintro ⟨a, b, c⟩
    have l := congrArg List.length c
    simp only [List.length_take, List.length_drop, List.length_singleton] at l
    have g := congrArg (·[0]?) c
    simp only [List.getElem?_take, List.getElem?_drop, List.getElem?_cons_zero] at g
    rw [if_pos (by omega)] at g
    exact ⟨g, by omega⟩
  · rintro ⟨a, rfl⟩
    have hs : s < t.length := by
      by_cases c : s < t.length
      · exact c
      · rw [List.getElem?_eq_none (by omega)] at a; cases a
    refine ⟨by omega, by omega, ?_⟩
    rw [show s + 1 - s = 1 by omega, List.drop_eq_getElem_cons hs]
    rw [List.getElem?_eq_getElem hs] at a
    simp only [Option.some.injEq] at a
    simp [a]

/-- The hypotheses can be met. -/
theorem one_finds (x : Byte) : Finds (findOne x) (Letter x) where
  some := by
    intro t s e h
    simp only [findOne, Option.map_eq_some_iff, Prod.mk.injEq] at h
    obtain ⟨i, hi, rfl, rfl⟩ := h
    rw [List.findIdx?_eq_some_iff_getElem] at hi
    obtain ⟨hl, hx, hn⟩ := hi
    refine ⟨by omega, one_at.mpr ⟨?_, rfl⟩, fun s' e' _ ma => ?_⟩
    · rw [List.getElem?_eq_getElem hl]; simpa using hx
    · obtain ⟨g, rfl⟩ := one_at.mp ma
      by_cases c : s' < i
      · have := hn s' c
        rw [List.getElem?_eq_getElem (by omega)] at g
        simp only [Option.some.injEq] at g
        simp [g] at this
      · omega
  none := by
    intro t h s e ma
    simp only [findOne, Option.map_eq_none_iff, List.findIdx?_eq_none_iff] at h
    obtain ⟨g, rfl⟩ := one_at.mp ma
    have := h x (List.mem_of_getElem? g)
    simp at this

/-- `a,b,c` searched for `,`: the first is at 1; from 2 on, the reported position is 1 instead of 3. -/
theorem one_sample : find (findOne 44) [97, 44, 98, 44, 99] = some ⟨[97, 44, 98, 44, 99], 1, 1⟩ ∧
    findAt (findOne 44) [97, 44, 98, 44, 99] 2 = some ⟨[98, 44, 99], 1, 1⟩ ∧
    (⟨[98, 44, 99], 1, 1⟩ : Match).asString = some [44] ∧ matchFull (findOne 44) [97, 44] = true := by decide +kernel

end Verif.StdRegex
