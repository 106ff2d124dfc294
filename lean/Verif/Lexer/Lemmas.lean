import Verif.Lexer.Model

/-! # Lemmas about the lexer -/

namespace Verif.Lexer
open Verif Verif.Str

/-- the text does not end in a quote or backslash -/
def Good (s : List Byte) : Prop := s.getLast? ≠ some 92 ∧ s.getLast? ≠ some 39

theorem Good.suffix {a b : List Byte} (h : Good (a ++ b)) : Good b := by
  unfold Good at *
  cases b with
  | nil => simp
  | cons x b =>
      simpa [List.getLast?_append] using h

theorem Good.drop {s : List Byte} (h : Good s) (n : Nat) : Good (s.drop n) :=
  Good.suffix (a := s.take n) (by rwa [List.take_append_drop])

/-! ## reading -/

theorem rd_lt {s : List Byte} {i : Nat} (h : i < s.length) : rd s i = .ok s[i] := by
  simp [rd, h, List.getD_eq_getElem?_getD]

theorem rd_end (s : List Byte) : rd s s.length = .ok 0 := by simp [rd]

theorem rd_le {s : List Byte} {i : Nat} (h : i ≤ s.length) : ∃ c, rd s i = .ok c ∧
    ((i < s.length ∧ s[i]? = some c) ∨ (i = s.length ∧ c = 0)) := by
  by_cases hi : i < s.length
  · exact ⟨s[i], rd_lt hi, .inl ⟨hi, by simp [hi]⟩⟩
  · obtain rfl : i = s.length := by omega
    exact ⟨0, rd_end s, .inr ⟨rfl, rfl⟩⟩

/-- a non-zero byte was read inside the text -/
theorem rd_ne {s : List Byte} {i : Nat} {c : Byte} (h : rd s i = .ok c) (hc : c ≠ 0) :
    i < s.length ∧ s[i]? = some c := by
  unfold rd at h
  split at h
  · rename_i hi
    refine ⟨hi, ?_⟩
    simp only [Run.ok.injEq] at h
    rw [← h, List.getD_eq_getElem?_getD]; simp [hi]
  · split at h
    · exact absurd (Run.ok.inj h).symm hc
    · cases h

theorem rd_le_of_ok {s : List Byte} {i : Nat} {c : Byte} (h : rd s i = .ok c) : i ≤ s.length := by
  unfold rd at h
  split at h
  · omega
  · split at h
    · omega
    · cases h

theorem rd_drop (s : List Byte) (k i : Nat) (hk : k ≤ s.length) : rd (s.drop k) i = rd s (k + i) := by
  unfold rd
  rw [List.length_drop]
  by_cases h : i < s.length - k
  · rw [if_pos h, if_pos (by omega)]
    simp [List.getD_eq_getElem?_getD]
  · rw [if_neg h, if_neg (show ¬ k + i < s.length by omega)]
    by_cases h2 : i = s.length - k
    · subst h2
      rw [if_pos rfl, if_pos (by omega)]
    · rw [if_neg h2, if_neg (by omega)]

theorem span_le (p : Byte → Bool) : ∀ s, span p s ≤ s.length
  | [] => Nat.le_refl _
  | c :: s => by
      rw [span]; split
      · have := span_le p s; simp; omega
      · simp

theorem span_drop_le (p : Byte → Bool) (s : List Byte) {n : Nat} (h : n ≤ s.length) :
    n + span p (s.drop n) ≤ s.length := by
  have := span_le p (s.drop n)
  rw [List.length_drop] at this; omega

theorem span_all (p : Byte → Bool) : ∀ (s : List Byte), ∀ c ∈ s.take (span p s), p c = true
  | [], c, h => by simp at h
  | x :: s, c, h => by
      rw [span] at h
      split at h
      · rw [List.take_succ_cons] at h
        simp only [List.mem_cons] at h
        rcases h with rfl | h
        · assumption
        · exact span_all p s c h
      · simp at h

theorem span_stop (p : Byte → Bool) : ∀ (s : List Byte) (c : Byte),
    (s.drop (span p s)).head? = some c → p c = false
  | [], c, h => by simp at h
  | x :: s, c, h => by
      rw [span] at h
      split at h
      · exact span_stop p s c (by simpa using h)
      · simp at h; subst h; simpa using ‹¬ p x = true›

theorem span_append (p : Byte → Bool) : ∀ (a b : List Byte), (∀ c ∈ a, p c = true) →
    (∀ c, b.head? = some c → p c = false) → span p (a ++ b) = a.length
  | [], b, _, hb => by
      cases b with
      | nil => rfl
      | cons c b => simp [span, hb c rfl]
  | x :: a, b, ha, hb => by
      rw [List.cons_append, span, if_pos (ha x (by simp)),
        span_append p a b (fun c hc => ha c (by simp [hc])) hb]
      rfl

/-! ## bytes passed over contain no newline -/

/-- the first `n` bytes exist and are not newlines -/
def NoNl (s : List Byte) (n : Nat) : Prop := n ≤ s.length ∧ 10 ∉ s.take n

theorem NoNl.step {s : List Byte} {n : Nat} {c : Byte} (h : NoNl s n) (hr : rd s n = .ok c)
    (h0 : c ≠ 0) (h10 : c ≠ 10) : NoNl s (n + 1) := by
  obtain ⟨hlt, hc⟩ := rd_ne hr h0
  refine ⟨hlt, ?_⟩
  rw [List.take_succ_eq_append_getElem hlt]
  have : s[n] = c := by simpa [hlt] using hc
  rw [this]
  simp only [List.mem_append, List.mem_singleton, not_or]
  exact ⟨h.2, fun h => h10 h.symm⟩

theorem NoNl.span {s : List Byte} {n : Nat} (h : NoNl s n) (p : Byte → Bool) (hp : p 10 = false) :
    NoNl s (n + span p (s.drop n)) := by
  refine ⟨span_drop_le p s h.1, ?_⟩
  rw [List.take_add]
  simp only [List.mem_append, not_or]
  refine ⟨h.2, fun hm => ?_⟩
  have := span_all p _ _ hm
  rw [hp] at this; cases this

theorem NoNl.zero (s : List Byte) : NoNl s 0 := ⟨by omega, by simp⟩

/-! ## the pieces -/

/-- outcome of a scanner: a length inside the text, or an access behind the NUL, the latter only
for a text ending in a quote or backslash -/
def Fine (s : List Byte) (lo : Nat) (x : Run Nat) : Prop :=
  (∃ n, x = .ok n ∧ lo ≤ n ∧ n ≤ s.length) ∨ (x = .ub ∧ ¬ Good s)

theorem is3_ok (s : List Byte) : ∃ b, is3 s = .ok b ∧ (b = true → 3 ≤ s.length) := by
  unfold is3
  obtain ⟨a, ea, ha⟩ := rd_le (Nat.zero_le s.length)
  rw [ea]; simp only [Run.ok_bind]
  by_cases h1 : a = 34
  · rw [if_neg (by simp [h1])]
    have h1l := (rd_ne ea (by rw [h1]; decide)).1
    obtain ⟨b, eb, hb⟩ := rd_le (s := s) (i := 1) (by omega)
    rw [eb]; simp only [Run.ok_bind]
    by_cases h2 : b = 34
    · rw [if_neg (by simp [h2])]
      have h2l := (rd_ne eb (by rw [h2]; decide)).1
      obtain ⟨c, ec, hc⟩ := rd_le (s := s) (i := 2) (by omega)
      rw [ec]
      refine ⟨c == 34, rfl, fun h => ?_⟩
      have := (rd_ne ec (by rintro rfl; exact absurd h (by decide))).1
      omega
    · rw [if_pos h2]; exact ⟨false, rfl, by simp⟩
  · rw [if_pos h1]; exact ⟨false, rfl, by simp⟩

theorem is2_ok (s : List Byte) {i : Nat} (h : i ≤ s.length) :
    ∃ b, is2 s i = .ok b ∧ (b = true → i + 2 ≤ s.length) := by
  unfold is2
  obtain ⟨a, ea, ha⟩ := rd_le h
  rw [ea]; simp only [Run.ok_bind]
  by_cases h1 : a = 34
  · rw [if_neg (by simp [h1])]
    have h1l := (rd_ne ea (by rw [h1]; decide)).1
    obtain ⟨b, eb, hb⟩ := rd_le (s := s) (i := i + 1) (by omega)
    rw [eb]
    refine ⟨b == 34, rfl, fun h => ?_⟩
    have := (rd_ne eb (by rintro rfl; exact absurd h (by decide))).1
    omega
  · rw [if_pos h1]; exact ⟨false, rfl, by simp⟩

theorem stop_ok (multi : Bool) (q : Byte) (hq : q ≠ 0) (s : List Byte) :
    ∃ b, stop multi q s = .ok b ∧ (b = true → (if multi then 3 else 1) ≤ s.length) := by
  unfold stop
  cases multi with
  | true => simpa using is3_ok s
  | false =>
      obtain ⟨a, ea, _⟩ := rd_le (Nat.zero_le s.length)
      simp only [Bool.false_eq_true, if_false, ea, Run.ok_bind]
      refine ⟨a == q, rfl, fun h => ?_⟩
      have hne : a ≠ 0 := by
        rintro rfl
        have h' : (0 : Byte) = q := by simpa using h
        exact hq h'.symm
      exact (rd_ne ea hne).1

theorem strScan_fine (multi : Bool) : ∀ r, Fine r 0 (strScan multi r)
  | [] => .inl ⟨0, by rw [strScan], by simp⟩
  | [c] => by
      unfold strScan
      obtain ⟨b, eb, _⟩ := stop_ok multi 34 (by decide) [c]
      rw [eb, Run.ok_bind]
      split
      · exact .inl ⟨0, rfl, by simp⟩
      · split
        · rename_i h2; exact .inr ⟨rfl, by simp [Good, h2.1]⟩
        · exact .inl ⟨1, rfl, by simp⟩
  | c :: d :: r => by
      unfold strScan
      obtain ⟨b, eb, _⟩ := stop_ok multi 34 (by decide) (c :: d :: r)
      rw [eb, Run.ok_bind]
      split
      · exact .inl ⟨0, rfl, by simp⟩
      · split
        · rcases strScan_fine multi r with ⟨n, hn, _, hl⟩ | ⟨hu, hg⟩
          · exact .inl ⟨n + 2, by simp [hn], by simp; omega⟩
          · exact .inr ⟨by simp [hu], fun h => hg (Good.suffix (a := [c, d]) h)⟩
        · rcases strScan_fine multi (d :: r) with ⟨n, hn, _, hl⟩ | ⟨hu, hg⟩
          · exact .inl ⟨n + 1, by simp [hn], by simp at hl ⊢; omega⟩
          · exact .inr ⟨by simp [hu], fun h => hg (Good.suffix (a := [c]) h)⟩

theorem rawScan_fine (multi : Bool) (q : Byte) (hq : q ≠ 0) :
    ∀ r, ∃ n, rawScan multi q r = .ok n ∧ n ≤ r.length
  | [] => ⟨0, by rw [rawScan], by simp⟩
  | [c] => by
      unfold rawScan
      obtain ⟨b, eb, _⟩ := stop_ok multi q hq [c]
      rw [eb, Run.ok_bind]
      split
      · exact ⟨0, rfl, by simp⟩
      · exact ⟨1, rfl, by simp⟩
  | c :: d :: r => by
      unfold rawScan
      obtain ⟨b, eb, _⟩ := stop_ok multi q hq (c :: d :: r)
      rw [eb, Run.ok_bind]
      split
      · exact ⟨0, rfl, by simp⟩
      · split
        · obtain ⟨n, hn, hl⟩ := rawScan_fine multi q hq r
          exact ⟨n + 2, by simp [hn], by simp; omega⟩
        · obtain ⟨n, hn, hl⟩ := rawScan_fine multi q hq (d :: r)
          exact ⟨n + 1, by simp [hn], by simp at hl ⊢; omega⟩

theorem close_fine (multi : Bool) (q : Byte) (hq : q ≠ 0) (s : List Byte) (len : Nat)
    (h : len ≤ s.length) : ∃ n, close multi q s len = .ok n ∧ len ≤ n ∧ n ≤ s.length := by
  unfold close
  obtain ⟨b, eb, hb⟩ := stop_ok multi q hq (s.drop len)
  rw [eb, Run.ok_bind]
  rw [List.length_drop] at hb
  by_cases hb' : b = true
  · have := hb hb'
    rw [if_pos hb']
    exact ⟨_, rfl, by omega, by omega⟩
  · rw [if_neg hb']
    exact ⟨len, rfl, by omega, by omega⟩

theorem quoted_fine (off : Nat) (s : List Byte) (h : off + 1 ≤ s.length) :
    Fine s (off + 1) (quoted off s) := by
  unfold quoted
  obtain ⟨m, em, hm⟩ := is2_ok s h
  rw [em, Run.ok_bind]
  have hst : (if m = true then off + 3 else off + 1) ≤ s.length := by
    split
    · rename_i h1; have := hm h1; omega
    · exact h
  have hst1 : off + 1 ≤ (if m = true then off + 3 else off + 1) := by split <;> omega
  generalize (if m = true then off + 3 else off + 1) = st at hst hst1
  rcases strScan_fine m (s.drop st) with ⟨n, hn, _, hl⟩ | ⟨hu, hg⟩
  · simp only [hn, Run.ok_bind]
    rw [List.length_drop] at hl
    obtain ⟨k, hk, h1, h2⟩ := close_fine m 34 (by decide) s (st + n) (by omega)
    exact .inl ⟨k, hk, by omega, h2⟩
  · exact .inr ⟨by simp [hu], fun hh => hg (hh.drop _)⟩

theorem rawString_fine (s : List Byte) (q : Byte) (h : rd s 1 = .ok q) (hq : q ≠ 0) :
    ∃ n, rawString s = .ok n ∧ 2 ≤ n ∧ n ≤ s.length := by
  have h2 := (rd_ne h hq).1
  unfold rawString
  rw [h, Run.ok_bind]
  obtain ⟨m, em, hm⟩ : ∃ m, rawMulti q s = .ok m ∧ (m = true → 4 ≤ s.length) := by
    unfold rawMulti
    split
    · exact is2_ok s (by omega)
    · exact ⟨false, rfl, by simp⟩
  rw [em, Run.ok_bind]
  have hst : (if m = true then 4 else 2) ≤ s.length := by
    split
    · rename_i h1; exact hm h1
    · omega
  have hst1 : 2 ≤ (if m = true then 4 else 2) := by split <;> omega
  generalize (if m = true then 4 else 2) = st at hst hst1
  obtain ⟨n, hn, hl⟩ := rawScan_fine m q hq (s.drop st)
  simp only [hn, Run.ok_bind]
  rw [List.length_drop] at hl
  obtain ⟨k, hk, h1, h2⟩ := close_fine m q hq s (st + n) (by omega)
  exact ⟨k, hk, by omega, h2⟩

theorem suffix_ok {s : List Byte} {n : Nat} (h : NoNl s n) :
    ∃ k, suffix s n = .ok k ∧ n ≤ k ∧ NoNl s k := by
  unfold suffix
  obtain ⟨c, ec, _⟩ := rd_le h.1
  rw [ec, Run.ok_bind]
  split
  · exact ⟨_, rfl, by omega, h.span _ (by decide)⟩
  · exact ⟨_, rfl, by omega, h⟩

theorem fraction_ok {s : List Byte} {n : Nat} (h : NoNl s n) :
    ∃ b k, fraction s n = .ok (b, k) ∧ n ≤ k ∧ NoNl s k := by
  unfold fraction
  obtain ⟨c, ec, _⟩ := rd_le h.1
  rw [ec, Run.ok_bind]
  split
  · rename_i hc
    have h1 := h.step ec (by rw [hc]; decide) (by rw [hc]; decide)
    obtain ⟨d, ed, _⟩ := rd_le h1.1
    rw [ed, Run.ok_bind]
    split
    · exact ⟨_, _, rfl, by omega, h1.span _ (by decide)⟩
    · exact ⟨_, _, rfl, by omega, h⟩
  · exact ⟨_, _, rfl, by omega, h⟩

theorem exponent_ok {s : List Byte} {b : Bool} {n : Nat} (h : NoNl s n) :
    ∃ b' k, exponent s (b, n) = .ok (b', k) ∧ n ≤ k ∧ NoNl s k := by
  unfold exponent
  obtain ⟨c, ec, _⟩ := rd_le h.1
  simp only [ec, Run.ok_bind]
  split
  · rename_i hc
    have h1 := h.step ec (by rcases hc with h | h <;> rw [h] <;> decide)
      (by rcases hc with h | h <;> rw [h] <;> decide)
    obtain ⟨d, ed, _⟩ := rd_le h1.1
    simp only [ed, Run.ok_bind]
    split
    · rename_i hd
      have h2 := h1.step ed (by rcases hd with h | h <;> rw [h] <;> decide)
        (by rcases hd with h | h <;> rw [h] <;> decide)
      exact ⟨_, _, rfl, by omega, h2.span _ (by decide)⟩
    · exact ⟨_, _, rfl, by omega, h1.span _ (by decide)⟩
  · exact ⟨_, _, rfl, by omega, h⟩

theorem number_ok {s : List Byte} {a : Byte} (h : rd s 0 = .ok a) (ha : isDigit a = true) :
    ∃ k n, number s = .ok (k, n) ∧ (k = .int ∨ k = .float) ∧ 1 ≤ n ∧ NoNl s n := by
  have ha0 : a ≠ 0 := by rintro rfl; exact absurd ha (by decide)
  have ha10 : a ≠ 10 := by rintro rfl; exact absurd ha (by decide)
  have h1 := (NoNl.zero s).step h ha0 ha10
  unfold number
  obtain ⟨b, eb, _⟩ := rd_le h1.1
  rw [h, Run.ok_bind, eb, Run.ok_bind]
  have pre : ∀ (p : Byte → Bool), p 10 = false → b ≠ 0 → b ≠ 10 →
      ∃ n, suffix s (2 + span p (s.drop 2)) = .ok n ∧ 1 ≤ n ∧ NoNl s n := by
    intro p hp hb0 hb10
    have h2 := (h1.step eb hb0 hb10).span p hp
    obtain ⟨k, hk, h3, h4⟩ := suffix_ok h2
    exact ⟨k, hk, by omega, h4⟩
  split
  · rename_i hx
    obtain ⟨n, hn, hl, hnl⟩ := pre isXdigit (by decide)
      (by rcases hx.2 with h | h <;> rw [h] <;> decide) (by rcases hx.2 with h | h <;> rw [h] <;> decide)
    exact ⟨.int, n, by simp [hn], .inl rfl, hl, hnl⟩
  · split
    · rename_i hx
      obtain ⟨n, hn, hl, hnl⟩ := pre (fun c => c == 48 || c == 49) (by decide)
        (by rcases hx.2 with h | h <;> rw [h] <;> decide)
        (by rcases hx.2 with h | h <;> rw [h] <;> decide)
      exact ⟨.int, n, by simp only [hn, Run.ok_bind]; rfl, .inl rfl, hl, hnl⟩
    · split
      · rename_i hx
        obtain ⟨n, hn, hl, hnl⟩ := pre (fun c => 48 ≤ c && c ≤ 55) (by decide)
          (by rcases hx.2 with h | h <;> rw [h] <;> decide)
          (by rcases hx.2 with h | h <;> rw [h] <;> decide)
        exact ⟨.int, n, by simp only [hn, Run.ok_bind]; rfl, .inl rfl, hl, hnl⟩
      · have hs := (NoNl.zero s).span isDigit (by decide)
        simp only [Nat.zero_add, List.drop_zero] at hs
        have hpos : 1 ≤ span isDigit s := by
          cases s with
          | nil => simp [NoNl] at h1
          | cons x s =>
              have : x = a := by
                rw [rd_lt (by simp)] at h; exact Run.ok.inj h
              subst this
              simp [span, ha]
        obtain ⟨b1, k1, e1, l1, n1⟩ := fraction_ok hs
        obtain ⟨b2, k2, e2, l2, n2⟩ := exponent_ok (b := b1) n1
        obtain ⟨k3, e3, l3, n3⟩ := suffix_ok n2
        refine ⟨_, k3, by simp only [e1, e2, e3, Run.ok_bind]; rfl, ?_, by omega, n3⟩
        cases b2 <;> simp

theorem charLit_fine {s : List Byte} (h : rd s 0 = .ok 39) : Fine s 1 (charLit s) := by
  have h0 := rd_ne h (by decide)
  unfold charLit
  obtain ⟨c, ec, hc⟩ := rd_le (s := s) (i := 1) (by omega)
  rw [ec, Run.ok_bind]
  have key : ∀ len, 1 ≤ len → len ≤ s.length →
      Fine s 1 (do let d ← rd s len; pure (if d = 39 then len + 1 else len)) := by
    intro len h1 hl
    obtain ⟨d, ed, hd⟩ := rd_le hl
    rw [ed, Run.ok_bind]
    split
    · rename_i hd39
      have := (rd_ne ed (by rw [hd39]; decide)).1
      exact .inl ⟨_, rfl, by omega, by omega⟩
    · exact .inl ⟨_, rfl, by omega, by omega⟩
  have bad : ∀ len, s.length < len → (do let d ← rd s len; pure (if d = 39 then len + 1 else len)) = Run.ub := by
    intro len hl
    rw [rd, if_neg (by omega), if_neg (by omega)]; rfl
  have hlast : ∀ k (x : Byte), s.length = k + 1 → s[k]? = some x → s.getLast? = some x := by
    intro k x hk hx
    rw [List.getLast?_eq_getElem?, hk]; simpa using hx
  by_cases h92 : c = 92
  · simp only [h92, if_true]
    obtain ⟨hl, hx⟩ := rd_ne ec (by rw [h92]; decide)
    by_cases h3 : 3 ≤ s.length
    · exact key 3 (by omega) h3
    · refine .inr ⟨bad 3 (by omega), ?_⟩
      have := hlast 1 c (by omega) hx
      simp [Good, this, h92]
  · simp only [h92, if_false]
    by_cases h3 : 2 ≤ s.length
    · exact key 2 (by omega) h3
    · refine .inr ⟨bad 2 (by omega), ?_⟩
      have := hlast 0 39 (by omega) h0.2
      simp [Good, this]

theorem op_len {s : List Byte} {a : Byte} (h0 : rd s 0 = .ok a) (ha : a ≠ 0) (ha10 : a ≠ 10)
    {b : Byte} (h1 : rd s 1 = .ok b) : NoNl s 1 ∧ (b ≠ 0 → b ≠ 10 → NoNl s 2 ∧
      ∃ c, rd s 2 = .ok c ∧ (c ≠ 0 → c ≠ 10 → NoNl s 3)) := by
  have n1 := (NoNl.zero s).step h0 ha ha10
  refine ⟨n1, fun hb hb10 => ?_⟩
  have n2 := n1.step h1 hb hb10
  obtain ⟨c, ec, _⟩ := rd_le n2.1
  exact ⟨n2, c, ec, fun hc hc10 => n2.step ec hc hc10⟩

/-- outcome of `operator` -/
def OpOk (s : List Byte) (x : Run (Kind × Nat)) : Prop :=
  ∃ k n, x = .ok (k, n) ∧ 1 ≤ n ∧ NoNl s n ∧
    k ≠ .eof ∧ k ≠ .comment ∧ k ≠ .char ∧ k ≠ .string ∧ k ≠ .fstring ∧ k ≠ .rawString

theorem OpOk.ite {s : List Byte} {p : Prop} [Decidable p] {x y : Run (Kind × Nat)}
    (h1 : p → OpOk s x) (h2 : ¬ p → OpOk s y) : OpOk s (if p then x else y) := by
  split
  · exact h1 ‹_›
  · exact h2 ‹_›

theorem operator_ok {s : List Byte} {a : Byte} (h0 : rd s 0 = .ok a) (ha : a ≠ 0) (ha10 : a ≠ 10) :
    OpOk s (operator s) := by
  obtain ⟨b, h1, _⟩ := rd_le (s := s) (i := 1) (rd_ne h0 ha).1
  obtain ⟨n1, hb⟩ := op_len h0 ha ha10 h1
  unfold operator
  rw [h0, Run.ok_bind, h1, Run.ok_bind]
  have two : ∀ x : Byte, x ≠ 0 → x ≠ 10 → b = x → NoNl s 2 := fun x hx hx' h => (hb (h ▸ hx) (h ▸ hx')).1
  have three : ∀ x : Byte, x ≠ 0 → x ≠ 10 → b = x → ∃ c, rd s 2 = .ok c ∧ (c ≠ 0 → c ≠ 10 → NoNl s 3) :=
    fun x hx hx' h => (hb (h ▸ hx) (h ▸ hx')).2
  refine OpOk.ite (fun h => ⟨_, _, rfl, by omega, two _ (by decide) (by decide) h.2, by decide⟩) fun _ => ?_
  refine OpOk.ite (fun h => ?_) fun _ => ?_
  · obtain ⟨c, ec, hc⟩ := three _ (by decide) (by decide) h.2
    rw [ec, Run.ok_bind]
    exact OpOk.ite (fun h3 => ⟨_, _, rfl, by omega, hc (by rw [h3]; decide) (by rw [h3]; decide), by decide⟩)
      fun _ => ⟨_, _, rfl, by omega, two _ (by decide) (by decide) h.2, by decide⟩
  refine OpOk.ite (fun _ => ⟨_, _, rfl, by omega, n1, by decide⟩) fun _ => ?_
  refine OpOk.ite (fun h => ⟨_, _, rfl, by omega, two _ (by decide) (by decide) h.2, by decide⟩) fun _ => ?_
  refine OpOk.ite (fun h => ⟨_, _, rfl, by omega, two _ (by decide) (by decide) h.2, by decide⟩) fun _ => ?_
  refine OpOk.ite (fun h => ?_) fun _ => ?_
  · obtain ⟨c, ec, hc⟩ := three _ (by decide) (by decide) h.2
    rw [ec, Run.ok_bind]
    iterate 3
      refine OpOk.ite (fun h3 => ⟨_, _, rfl, by omega, hc (by rw [h3]; decide) (by rw [h3]; decide),
        by decide⟩) fun _ => ?_
    exact ⟨_, _, rfl, by omega, two _ (by decide) (by decide) h.2, by decide⟩
  refine OpOk.ite (fun h => ?_) fun _ => ?_
  · have : b = 62 := by rcases h with h | h <;> exact h.2
    exact ⟨_, _, rfl, by omega, two _ (by decide) (by decide) this, by decide⟩
  refine OpOk.ite (fun h => ?_) fun _ => ?_
  · have hb0 : b ≠ 0 ∧ b ≠ 10 := by rcases h with h | h <;> rw [h.2] <;> decide
    obtain ⟨n2, c, ec, hc⟩ := hb hb0.1 hb0.2
    rw [ec, Run.ok_bind]
    exact OpOk.ite (fun h3 => ⟨_, _, rfl, by omega, hc (by rw [h3]; decide) (by rw [h3]; decide), by decide⟩)
      fun _ => ⟨_, _, rfl, by omega, n2, by decide⟩
  refine OpOk.ite (fun h => ?_) fun _ => ?_
  · have hb0 : b ≠ 0 ∧ b ≠ 10 := by rcases h with h | h | h | h <;> rw [h.2] <;> decide
    exact ⟨_, _, rfl, by omega, (hb hb0.1 hb0.2).1, by decide⟩
  refine OpOk.ite (fun h => ⟨_, _, rfl, by omega, two _ (by decide) (by decide) h.1, by decide⟩) fun _ => ?_
  iterate 12
    refine OpOk.ite (fun _ => ⟨_, _, rfl, by omega, n1, by decide⟩) fun _ => ?_
  exact ⟨_, _, rfl, by omega, n1, by decide⟩

theorem keyword_kind {w : List Byte} {k : Kind} (h : keyword w keywords = some k) :
    k ≠ .eof ∧ k ≠ .comment ∧ k ≠ .char ∧ k ≠ .string ∧ k ≠ .fstring ∧ k ≠ .rawString := by
  have key : ∀ ks : List (List Byte × Kind),
      (∀ p ∈ ks, p.2 ≠ .eof ∧ p.2 ≠ .comment ∧ p.2 ≠ .char ∧ p.2 ≠ .string ∧ p.2 ≠ .fstring ∧ p.2 ≠ .rawString) →
      keyword w ks = some k → k ≠ .eof ∧ k ≠ .comment ∧ k ≠ .char ∧ k ≠ .string ∧ k ≠ .fstring ∧ k ≠ .rawString := by
    intro ks
    induction ks with
    | nil => intro _ h; cases h
    | cons p ks ih =>
        obtain ⟨w', t⟩ := p
        intro hp h
        rw [keyword] at h
        split at h
        · cases h; exact hp (w', k) (by simp)
        · exact ih (fun q hq => hp q (by simp [hq])) h
  exact key keywords (by decide) h

/-- what one token looks like: a non-empty piece of the text, free of newlines unless it is a
string or character literal -/
theorem raw_spec {s : List Byte} {a : Byte} (h0 : rd s 0 = .ok a) (ha : a ≠ 0) (ha10 : a ≠ 10) :
    (∃ k n, raw s = .ok (k, n) ∧ 1 ≤ n ∧ n ≤ s.length ∧ (k ≠ .eof ∧ k ≠ .comment) ∧
      (10 ∉ s.take n ∨ k = .char ∨ k = .string ∨ k = .fstring ∨ k = .rawString)) ∨
    (raw s = .ub ∧ ¬ Good s) := by
  have hlt := (rd_ne h0 ha).1
  unfold raw
  rw [h0, Run.ok_bind]
  by_cases hid : identStart a = true
  · rw [if_pos hid]
    have hs := (NoNl.zero s).span identChar (by decide)
    simp only [Nat.zero_add, List.drop_zero] at hs
    have hpos : 1 ≤ span identChar s := by
      cases s with
      | nil => simp at hlt
      | cons x s =>
          have : x = a := by
            rw [rd_lt (by simp)] at h0; exact Run.ok.inj h0
          subst this
          have : identChar x = true := by
            simp only [identStart, Bool.or_eq_true] at hid
            simp only [identChar, Bool.or_eq_true]
            rcases hid with h | h <;> simp [h]
          simp [span, this]
    dsimp only
    cases hk : keyword (s.take (span identChar s)) keywords with
    | some k => exact .inl ⟨k, _, rfl, hpos, hs.1, ⟨(keyword_kind hk).1, (keyword_kind hk).2.1⟩, .inl hs.2⟩
    | none =>
        obtain ⟨b, eb, _⟩ := rd_le (s := s) (i := 1) hlt
        simp only [eb, Run.ok_bind]
        split
        · rename_i hf
          have hb : 1 < s.length := (rd_ne eb (by rw [hf.2.2]; decide)).1
          rcases quoted_fine 1 s hb with ⟨n, hn, h1, h2⟩ | ⟨hu, hg⟩
          · exact .inl ⟨.fstring, n, by simp [hn], by omega, h2, by decide, by simp⟩
          · exact .inr ⟨by simp [hu], hg⟩
        · split
          · rename_i hf
            obtain ⟨n, hn, h1, h2⟩ := rawString_fine s b eb
              (by rcases hf.2.2 with h | h <;> rw [h] <;> decide)
            exact .inl ⟨.rawString, n, by simp [hn], by omega, h2, by decide, by simp⟩
          · exact .inl ⟨.ident, _, rfl, hpos, hs.1, by decide, .inl hs.2⟩
  · rw [if_neg hid]
    by_cases hd : isDigit a = true
    · rw [if_pos hd]
      obtain ⟨k, n, hn, hk, h1, h2⟩ := number_ok h0 hd
      exact .inl ⟨k, n, hn, h1, h2.1, by rcases hk with rfl | rfl <;> decide, .inl h2.2⟩
    · rw [if_neg hd]
      split
      · rcases quoted_fine 0 s hlt with ⟨n, hn, h1, h2⟩ | ⟨hu, hg⟩
        · exact .inl ⟨.string, n, by simp [hn], by omega, h2, by decide, by simp⟩
        · exact .inr ⟨by simp [hu], hg⟩
      · split
        · rename_i h39
          rcases charLit_fine (h39 ▸ h0) with ⟨n, hn, h1, h2⟩ | ⟨hu, hg⟩
          · exact .inl ⟨.char, n, by simp [hn], by omega, h2, by decide, by simp⟩
          · exact .inr ⟨by simp [hu], hg⟩
        · obtain ⟨k, n, hn, h1, h2, hk⟩ := operator_ok h0 ha ha10
          exact .inl ⟨k, n, hn, h1, h2.1, ⟨hk.1, hk.2.1⟩, .inl h2.2⟩

/-! ## white space, directives and comments -/

theorem skipWs_spec : ∀ (s : List Byte) (l : Lex), ∃ g, s = g ++ (skipWs s l).1 ∧
    (∀ c ∈ g, isSpace c = true) ∧ (∀ c, (skipWs s l).1.head? = some c → isSpace c = false) ∧
    (skipWs s l).2.pos = l.pos + g.length ∧ (skipWs s l).2.line = l.line + g.count 10
  | [], l => ⟨[], rfl, by simp, by simp [skipWs], rfl, rfl⟩
  | c :: s, l => by
      rw [skipWs]
      by_cases h : isSpace c = true
      · rw [if_pos h]
        obtain ⟨g, h1, h2, h3, h4, h5⟩ := skipWs_spec s
          (if c = 10 then ⟨l.pos + 1, l.line + 1, 1⟩ else ⟨l.pos + 1, l.line, l.col + 1⟩)
        refine ⟨c :: g, by rw [List.cons_append, ← h1], ?_, h3, ?_, ?_⟩
        · intro x hx
          simp only [List.mem_cons] at hx
          rcases hx with rfl | hx
          · exact h
          · exact h2 x hx
        · rw [h4]; split <;> simp <;> omega
        · rw [h5]; split
          · rename_i hc; subst hc; simp; omega
          · rename_i hc; rw [List.count_cons_of_ne hc]
      · rw [if_neg h]
        refine ⟨[], rfl, by simp, ?_, rfl, rfl⟩
        intro x hx
        simp only [List.head?_cons, Option.some.injEq] at hx
        subst hx; simpa using h

theorem preproc_spec : ∀ s : List Byte, (preproc s).1 ≤ s.length ∧
    (preproc s).2 = (s.take (preproc s).1).count 10 ∧
    (∀ c, (s.drop (preproc s).1).head? = some c → c = 10)
  | [] => by simp [preproc]
  | [c] => by
      unfold preproc
      by_cases h : c = 10
      · simp [h]
      · simp [h]
  | c :: d :: s => by
      unfold preproc
      by_cases h : c = 10
      · simp [h]
      · simp only [h, if_false]
        by_cases h2 : c = 92 ∧ d = 10
        · obtain ⟨h3, h4, h5⟩ := preproc_spec s
          simp only [h2, and_self, if_true]
          refine ⟨by simp; omega, ?_, ?_⟩
          · rw [List.take_succ_cons, List.take_succ_cons]; simp [h4]
          · simpa using h5
        · obtain ⟨h3, h4, h5⟩ := preproc_spec (d :: s)
          simp only [h2, if_false]
          refine ⟨by simp at h3 ⊢; omega, ?_, ?_⟩
          · rw [List.take_succ_cons, List.count_cons_of_ne h]; exact h4
          · simpa using h5

theorem preproc_pos {s : List Byte} (h : s.head? = some 35) : 1 ≤ (preproc s).1 := by
  match s with
  | [] => simp at h
  | [c] => simp at h; subst h; simp [preproc]
  | c :: d :: s => simp at h; subst h; simp [preproc]

/-- block comments: the body up to the first `*/`, or the rest of the text -/
theorem block_spec : ∀ (s : List Byte) (l : Lex), ∃ body rest,
    ((s = body ++ 42 :: 47 :: rest ∧ (block s l).pos = l.pos + body.length + 2) ∨
      (s = body ∧ rest = [] ∧ (block s l).pos = l.pos + body.length)) ∧
    ¬ [42, 47] <:+: body ∧ (block s l).line = l.line + body.count 10
  | [], l => ⟨[], [], .inr ⟨rfl, rfl, rfl⟩, by simp, rfl⟩
  | c :: s, l => by
      unfold block
      by_cases h : c = 42 ∧ s.head? = some 47
      · rw [if_pos h]
        obtain ⟨rfl, hs⟩ := h
        obtain ⟨r, rfl⟩ : ∃ r, s = 47 :: r := by
          cases s with
          | nil => simp at hs
          | cons x r => exact ⟨r, by simpa using hs⟩
        exact ⟨[], r, .inl ⟨rfl, rfl⟩, by simp, rfl⟩
      · rw [if_neg h]
        have main : ∀ l' : Lex, l'.pos = l.pos + 1 → l'.line = l.line + [c].count 10 →
            ∃ body rest, ((c :: s = body ++ 42 :: 47 :: rest ∧
              (block s l').pos = l.pos + body.length + 2) ∨
              (c :: s = body ∧ rest = [] ∧ (block s l').pos = l.pos + body.length)) ∧
              ¬ [42, 47] <:+: body ∧ (block s l').line = l.line + body.count 10 := by
          intro l' hp hln
          obtain ⟨body, rest, h1, h2, h3⟩ := block_spec s l'
          refine ⟨c :: body, rest, ?_, ?_, ?_⟩
          · rcases h1 with ⟨h1, h4⟩ | ⟨h1, h5, h4⟩
            · left; exact ⟨by rw [h1]; rfl, by rw [h4, hp]; simp; omega⟩
            · right; exact ⟨by rw [h1], h5, by rw [h4, hp]; simp; omega⟩
          · rw [List.infix_cons_iff]
            rintro (hpf | hin)
            · obtain ⟨t, ht⟩ := hpf
              simp only [List.cons_append, List.nil_append, List.cons.injEq] at ht
              apply h
              refine ⟨ht.1.symm, ?_⟩
              rcases h1 with ⟨h1, _⟩ | ⟨h1, _⟩ <;> rw [h1, ← ht.2] <;> rfl
            · exact h2 hin
          · rw [h3, hln, show c :: body = [c] ++ body from rfl, List.count_append]; omega
        split
        · rename_i h10; exact main _ rfl (by simp [h10])
        · rename_i h10; exact main _ rfl (by simp [h10])

theorem count_spec : ∀ (s : List Byte) (l : Lex), (count s l).line = l.line + s.count 10
  | [], l => rfl
  | c :: s, l => by
      rw [count, count_spec s]
      split
      · rename_i h; subst h; simp; omega
      · rename_i h; rw [List.count_cons_of_ne h]

end Verif.Lexer
