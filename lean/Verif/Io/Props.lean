import Verif.Io.Model
import Verif.Str.Lemmas

/-! # C64: reading lines and formatting -/

namespace Verif.Io
open Verif Verif.Str Spec

/-- The buffer holds the characters read so far and has room. -/
structure Inv (s : Buf) (l : List Byte) : Prop where
  len : s.len = l.length
  cap : s.line.length = s.cap
  big : 64 ≤ s.cap
  room : s.len + 1 ≤ s.cap
  small : s.cap ≤ 64 ∨ s.cap ≤ 4 * s.len
  pre : ∃ rest, s.line = l.map some ++ rest

theorem grow_inv {s : Buf} {l : List Byte} (h : Inv s l) (hl : l.length < 2 ^ 60) :
    Inv (grow s) l ∧ (grow s).len + 2 ≤ (grow s).cap := by
  unfold grow
  split
  · rename_i hg
    have hlen := h.len
    have hroom := h.room
    have hbig := h.big
    have hsm := h.small
    have hm : 2 * s.cap % 2 ^ 64 = 2 * s.cap := Nat.mod_eq_of_lt (by omega)
    rw [hm]
    obtain ⟨rest, hr⟩ := h.pre
    refine ⟨⟨h.len, ?_, ?_, ?_, ?_, ?_⟩, ?_⟩
    · exact Mem.length_realloc _ _ (by rw [h.cap]; omega)
    · show 64 ≤ 2 * s.cap; omega
    · show s.len + 1 ≤ 2 * s.cap; omega
    · show 2 * s.cap ≤ 64 ∨ 2 * s.cap ≤ 4 * s.len; omega
    · refine ⟨rest ++ List.replicate (2 * s.cap - s.line.length) none, ?_⟩
      show Mem.realloc s.line (2 * s.cap) = _
      unfold Mem.realloc
      rw [List.take_of_length_le (by rw [h.cap]; omega), hr]
      simp
    · show s.len + 2 ≤ 2 * s.cap; omega
  · exact ⟨h, by omega⟩

theorem put_inv {s : Buf} {l : List Byte} (h : Inv s l) (c : Byte) (hr : s.len + 2 ≤ s.cap) :
    ∃ s', put s c = .ok s' ∧ Inv s' (l ++ [c]) := by
  have hlt : s.len < s.line.length := by rw [h.cap]; omega
  obtain ⟨rest, hp⟩ := h.pre
  refine ⟨{ s with line := s.line.set s.len (some c), len := s.len + 1 }, ?_, ?_⟩
  · unfold put Mem.store; rw [if_pos hlt]; rfl
  · refine ⟨?_, ?_, h.big, ?_, ?_, ?_⟩
    · simp [h.len]
    · simpa using h.cap
    · show s.len + 1 + 1 ≤ s.cap; omega
    · have := h.small
      show s.cap ≤ 64 ∨ s.cap ≤ 4 * (s.len + 1); omega
    · refine ⟨rest.drop 1, ?_⟩
      show s.line.set s.len (some c) = _
      rw [hp, List.set_append_right _ _ (by simp [h.len])]
      cases rest with
      | nil => rw [hp] at hlt; simp [h.len] at hlt
      | cons x xs => simp [h.len]

theorem loop_line : ∀ (l r : List Byte) (s : Buf) (p : List Byte), Inv s p → p.length + l.length < 2 ^ 60 → 10 ∉ l →
    ∃ s', loop (l ++ 10 :: r) s = .ok (s', false, r) ∧ Inv s' (p ++ l)
  | [], r, s, p, h, _, _ => ⟨s, by simp [loop], by simpa using h⟩
  | c :: l, r, s, p, h, hl, hn => by
      simp only [List.mem_cons, not_or] at hn
      simp only [List.length_cons] at hl
      obtain ⟨h1, h2⟩ := grow_inv h (by omega)
      obtain ⟨s1, e1, h3⟩ := put_inv h1 c h2
      obtain ⟨s2, e2, h4⟩ := loop_line l r s1 _ h3 (by simp; omega) hn.2
      refine ⟨s2, ?_, by simpa using h4⟩
      rw [List.cons_append, loop, if_neg (Ne.symm hn.1), e1, Res.ok_bind, e2]

theorem loop_eof : ∀ (l : List Byte) (s : Buf) (p : List Byte), Inv s p → p.length + l.length < 2 ^ 60 → 10 ∉ l →
    ∃ s', loop l s = .ok (s', true, []) ∧ Inv s' (p ++ l)
  | [], s, p, h, _, _ => ⟨s, by simp [loop], by simpa using h⟩
  | c :: l, s, p, h, hl, hn => by
      simp only [List.mem_cons, not_or] at hn
      simp only [List.length_cons] at hl
      obtain ⟨h1, h2⟩ := grow_inv h (by omega)
      obtain ⟨s1, e1, h3⟩ := put_inv h1 c h2
      obtain ⟨s2, e2, h4⟩ := loop_eof l s1 _ h3 (by simp; omega) hn.2
      refine ⟨s2, ?_, by simpa using h4⟩
      rw [loop, if_neg (Ne.symm hn.1), e1, Res.ok_bind, e2]

theorem start_inv : Inv ⟨Mem.malloc 64, 64, 0⟩ [] :=
  ⟨rfl, by simp [Mem.malloc], by simp, by simp, by simp, _, rfl⟩

theorem finish {s : Buf} {l : List Byte} (h : Inv s l) : ∃ m, Mem.store s.line s.len 0 = .ok m ∧ Line m l := by
  obtain ⟨rest, hp⟩ := h.pre
  have hroom := h.room
  have hlt : s.len < s.line.length := by rw [h.cap]; omega
  refine ⟨s.line.set s.len (some 0), by unfold Mem.store; rw [if_pos hlt], rest.drop 1, ?_⟩
  rw [hp, List.set_append_right _ _ (by simp [h.len])]
  cases rest with
  | nil => rw [hp] at hlt; simp [h.len] at hlt
  | cons x xs => simp [h.len]

/-- C64: `readln` returns the characters up to the next newline, of any number, and leaves what follows
it; it stays inside its buffer. -/
theorem readln_line (l r : List Byte) (hl : l.length < 2 ^ 60) (hn : 10 ∉ l) :
    ∃ m, readln (l ++ 10 :: r) = .ok (some m, r) ∧ Line m l := by
  obtain ⟨s, e, h⟩ := loop_line l r _ [] start_inv (by simpa using hl) hn
  obtain ⟨m, e2, h2⟩ := finish h
  refine ⟨m, ?_, by simpa using h2⟩
  rw [readln, e, Res.ok_bind]
  simp only [Bool.false_eq_true, and_false, if_false, e2, Res.ok_bind]

/-- C64: the last line need not end with a newline. -/
theorem readln_last (l : List Byte) (hl : l.length < 2 ^ 60) (hn : 10 ∉ l) (hne : l ≠ []) :
    ∃ m, readln l = .ok (some m, []) ∧ Line m l := by
  obtain ⟨s, e, h⟩ := loop_eof l _ [] start_inv (by simpa using hl) hn
  obtain ⟨m, e2, h2⟩ := finish h
  refine ⟨m, ?_, by simpa using h2⟩
  rw [readln, e, Res.ok_bind]
  have : s.len ≠ 0 := by
    rw [h.len]; intro h0
    exact hne (by simpa using List.length_eq_zero_iff.1 h0)
  simp only [this, false_and, if_false, e2, Res.ok_bind]

/-- C64: at the end of the input the result is NULL. -/
theorem readln_end : readln [] = .ok (none, []) := by
  rw [readln, loop, Res.ok_bind]; simp

/-- C64: reading until NULL gives the lines of the input, whatever their number and length. -/
theorem readln_lines {input : List Byte} {ls : List (List Byte)} (h : Lines input ls) (hl : input.length < 2 ^ 60) :
    ∀ n, ls.length < n → ∃ ms, readAll n input = .ok ms ∧ AllLines ms ls := by
  induction h with
  | none =>
      intro n hn
      match n, hn with
      | n + 1, _ => exact ⟨[], by rw [readAll, readln_end]; rfl, trivial⟩
  | last hne hn =>
      rename_i l
      intro n hk
      match n, hk with
      | n + 2, _ =>
          obtain ⟨m, e, h⟩ := readln_last l hl hn hne
          refine ⟨[m], ?_, h, trivial⟩
          rw [readAll, e, Res.ok_bind]
          simp only
          rw [readAll, readln_end]
          rfl
  | @more l r ls hn _ ih =>
      intro n hk
      match n, hk with
      | n + 1, hk =>
          simp only [List.length_append, List.length_cons] at hl hk
          obtain ⟨m, e, h⟩ := readln_line l r (by omega) hn
          obtain ⟨ms, e2, h2⟩ := ih (by omega) n (by omega)
          refine ⟨m :: ms, ?_, h, h2⟩
          rw [readAll, e, Res.ok_bind]
          simp only [e2, Res.ok_bind]

/-- every text has lines -/
theorem lines_exist (t : List Byte) : ∃ ls, Lines t ls := by
  suffices h : ∀ (t cur : List Byte), 10 ∉ cur → ∃ ls, Lines (cur ++ t) ls by simpa using h t [] (by simp)
  intro t
  induction t with
  | nil =>
      intro cur hc
      rw [List.append_nil]
      by_cases hn : cur = []
      · subst hn; exact ⟨[], .none⟩
      · exact ⟨[cur], .last hn hc⟩
  | cons c t ih =>
      intro cur hc
      by_cases h10 : c = 10
      · subst h10
        obtain ⟨ls, h⟩ := ih [] (by simp)
        exact ⟨cur :: ls, .more hc (by simpa using h)⟩
      · obtain ⟨ls, h⟩ := ih (cur ++ [c]) (by
          simp only [List.mem_append, List.mem_singleton, not_or]; exact ⟨hc, Ne.symm h10⟩)
        exact ⟨ls, by simpa using h⟩

example : ∃ ms, readAll 4 [97, 10, 10, 98] = .ok ms ∧ AllLines ms [[97], [], [98]] :=
  readln_lines (.more (l := [97]) (by decide) (.more (l := []) (by decide) (.last (by decide) (by decide))))
    (by decide) 4 (by decide)

/-! ## formatting -/

/-- C64: texts of at most 1023 characters are formatted exactly. -/
theorem format_partial (static : Mem Byte) (t : List Byte) (h : t.length ≤ 1023) :
    Line (format static t) t ∧ Line (formatNew t) t := by
  have : t.take 1023 = t := List.take_of_length_le h
  constructor
  · exact ⟨_, by unfold format vsnprintf; simp only [show ¬ (1024 = 0) by decide, if_false, this, Nat.add_one_sub_one]; rfl⟩
  · exact ⟨_, by unfold formatNew vsnprintf; simp only [show ¬ (1024 = 0) by decide, if_false, this, Nat.add_one_sub_one]; rfl⟩

/-- C64 fails: longer texts are cut. -/
theorem format_long_violated (static : Mem Byte) (t : List Byte) :
    Line (format static t) (t.take 1023) ∧ Line (formatNew t) (t.take 1023) :=
  ⟨⟨_, rfl⟩, ⟨_, rfl⟩⟩

/-- a block holds one line without zero bytes -/
theorem line_unique : ∀ {m : Mem Byte} {t u : List Byte}, 0 ∉ t → 0 ∉ u → Line m t → Line m u → t = u
  | _, [], [], _, _, _, _ => rfl
  | m, a :: t, [], ha, _, ⟨r, h⟩, ⟨r', h'⟩ => by
      rw [h] at h'
      simp only [List.map_cons, List.cons_append, List.map_nil, List.nil_append, List.cons.injEq, Option.some.injEq] at h'
      exact absurd (by simp [h'.1]) ha
  | m, [], c :: u, _, hu, ⟨r, h⟩, ⟨r', h'⟩ => by
      rw [h'] at h
      simp only [List.map_cons, List.cons_append, List.map_nil, List.nil_append, List.cons.injEq, Option.some.injEq] at h
      exact absurd (by simp [h.1]) hu
  | m, a :: t, c :: u, ha, hu, ⟨r, h⟩, ⟨r', h'⟩ => by
      rw [h] at h'
      simp only [List.map_cons, List.cons_append, List.cons.injEq, Option.some.injEq] at h'
      simp only [List.mem_cons, not_or] at ha hu
      rw [h'.1, line_unique ha.2 hu.2 ⟨r, rfl⟩ ⟨r', h'.2⟩]

/-- C64 fails: the result of `format` does not outlive the next call with another text. -/
theorem format_static_violated (static : Mem Byte) (t u : List Byte) (ht : 0 ∉ t) (hu : 0 ∉ u) (hl : u.length ≤ 1023)
    (hne : t ≠ u) : ¬ Line (format (format static t) u) t :=
  fun h => hne (line_unique ht hu h (format_partial _ u hl).1)

/-- C64: `format_into` writes inside the buffer it is given, and returns the length of the whole
text. -/
theorem format_into_exact (buffer : Mem Byte) (size : Nat) (t : List Byte) (h : size ≤ buffer.length) (h0 : 0 < size) :
    ∃ m, formatInto buffer size t = .ok (m, t.length) ∧ Line m (t.take (size - 1)) ∧ m.length = buffer.length ∧
      m.drop size = buffer.drop size := by
  refine ⟨vsnprintf size buffer t, by rw [formatInto, if_pos h], ?_, ?_, ?_⟩
  · exact ⟨_, by rw [vsnprintf, if_neg (by omega)]⟩
  · rw [vsnprintf, if_neg (by omega)]; simp; omega
  · rw [vsnprintf, if_neg (by omega), List.drop_append, List.drop_of_length_le (by simp; omega)]
    simp only [List.length_map, List.nil_append]
    have : size - (t.take (size - 1)).length = (size - (t.take (size - 1)).length - 1) + 1 := by
      simp; omega
    rw [this, List.drop_succ_cons, List.drop_drop]
    congr 1
    simp; omega

/-! ## integers -/

theorem digits_length : ∀ (k n : Nat), n < 10 ^ (k + 1) → (digits n).length ≤ k + 1
  | 0, n, h => by rw [digits, if_pos (by omega)]; simp
  | k + 1, n, h => by
      rw [digits]
      split
      · simp
      · rw [List.length_append]
        have := digits_length k (n / 10) (by rw [Nat.pow_succ] at h; omega)
        simp only [List.length_cons, List.length_nil]; omega

theorem digits_value (n : Nat) : (digits n).foldl (fun v c => 10 * v + (c.toNat - 48)) 0 = n ∧
    ∀ c ∈ digits n, c ≠ 45 := by
  have hd : ∀ k : Fin 10, (UInt8.ofNat (48 + k.val)).toNat - 48 = k.val ∧ UInt8.ofNat (48 + k.val) ≠ 45 := by decide
  fun_induction digits n with
  | case1 n h =>
      have := hd ⟨n, h⟩
      exact ⟨by simpa using this.1, by simpa using this.2⟩
  | case2 n h ih =>
      have hk := hd ⟨n % 10, by omega⟩
      refine ⟨?_, ?_⟩
      · rw [List.foldl_append, ih.1, List.foldl_cons, List.foldl_nil, hk.1]
        simp only
        omega
      · intro c hc
        rcases List.mem_append.1 hc with hc | hc
        · exact ih.2 c hc
        · rw [List.mem_singleton.1 hc]; exact hk.2

/-- C64: `itos` gives the decimal text of every `int` and `uint`, inside its buffer. -/
theorem itos_exact (buffer : Mem Byte) (n : Int) (h1 : -2 ^ 31 ≤ n) (h2 : n < 2 ^ 32) :
    ∃ m t, itos buffer n = .ok m ∧ Line m t ∧ value t = n := by
  have hl : (decimal n).length ≤ 11 := by
    unfold decimal
    have := digits_length 9 n.natAbs (by omega)
    split <;> simp <;> omega
  refine ⟨_, decimal n, by rw [itos, if_pos (by omega)], ⟨_, rfl⟩, ?_⟩
  obtain ⟨hv, hm⟩ := digits_value n.natAbs
  unfold decimal
  split
  · rw [value, hv]; omega
  · have : value (digits n.natAbs) = ((digits n.natAbs).foldl (fun v c => 10 * v + (c.toNat - 48)) 0 : Nat) := by
      unfold value
      split
      · rename_i t heq
        exact absurd rfl (hm 45 (by rw [heq]; simp))
      · rfl
    rw [this, hv]; omega

theorem digits_zero (n : Nat) : 0 ∉ digits n := by
  have hd : ∀ k : Fin 10, UInt8.ofNat (48 + k.val) ≠ 0 := by decide
  fun_induction digits n with
  | case1 n h => simpa using (hd ⟨n, h⟩).symm
  | case2 n h ih =>
      have hk := hd ⟨n % 10, by omega⟩
      simp only [List.mem_append, List.mem_singleton, not_or]
      exact ⟨ih, hk.symm⟩

theorem decimal_zero (n : Int) : 0 ∉ decimal n := by
  unfold decimal
  split
  · simp only [List.mem_cons, not_or]; exact ⟨by decide, digits_zero _⟩
  · exact digits_zero _

/-- C64 fails: the result of `itos` does not outlive the next call with another number. -/
theorem itos_static_violated (buffer : Mem Byte) (a c : Int) (h1 : -2 ^ 31 ≤ a ∧ a < 2 ^ 32) (h2 : -2 ^ 31 ≤ c ∧ c < 2 ^ 32)
    (hne : a ≠ c) : ∃ m m' t, itos buffer a = .ok m ∧ itos m c = .ok m' ∧ value t = a ∧ Line m t ∧ ¬ Line m' t := by
  have hl : ∀ n : Int, -2 ^ 31 ≤ n → n < 2 ^ 32 → (decimal n).length + 1 ≤ 32 ∧ value (decimal n) = n := by
    intro n h1 h2
    obtain ⟨m, t, e, hm, hv⟩ := itos_exact [] n h1 h2
    have hlen : (decimal n).length + 1 ≤ 32 := by
      unfold itos at e
      split at e
      · assumption
      · cases e
    refine ⟨hlen, ?_⟩
    unfold decimal
    obtain ⟨hv, hm⟩ := digits_value n.natAbs
    split
    · rw [value, hv]; omega
    · have : value (digits n.natAbs) = ((digits n.natAbs).foldl (fun v c => 10 * v + (c.toNat - 48)) 0 : Nat) := by
        unfold value
        split
        · rename_i t heq
          exact absurd rfl (hm 45 (by rw [heq]; simp))
        · rfl
      rw [this, hv]; omega
  have ha := hl a h1.1 h1.2
  have hc := hl c h2.1 h2.2
  refine ⟨_, _, decimal a, by rw [itos, if_pos ha.1], by rw [itos, if_pos hc.1], ha.2, ⟨_, rfl⟩, ?_⟩
  intro h
  apply hne
  rw [← ha.2, ← hc.2, line_unique (decimal_zero a) (decimal_zero c) h ⟨_, rfl⟩]

end Verif.Io
