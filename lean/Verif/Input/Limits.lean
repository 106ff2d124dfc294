import Verif.Input.Props

/-!
# C154, C155: where lines and values are not read
-/

namespace Verif.Input
open Verif Verif.Str Verif.Input.Spec

theorem read_one (L : Lib) (m : Mode) (t : Ty) (old line rest : List Byte) (hl : line.length < 2 ^ 60) (hn : 10 ∉ line)
    (h0 : 0 ∉ line) : read L m [t] (line ++ 10 :: rest) [old] =
      (scan L (conv m t) line [old] 0).bind fun r => .ok (r.1, r.2, rest) := by
  unfold read
  rw [arguments_fit m _ (by simp), Res.ok_bind]
  obtain ⟨b, h, hb⟩ := line_read line rest hl hn h0
  unfold scanHelper
  rw [h, Res.ok_bind]
  simp only [hb, format]
  rfl

theorem digits_plain {ds : List Byte} (hd : ∀ c ∈ ds, 48 ≤ c ∧ c ≤ 57) : 10 ∉ ds ∧ 0 ∉ ds :=
  ⟨fun h => absurd (hd 10 h).1 (by decide), fun h => absurd (hd 0 h).1 (by decide)⟩

theorem isInt_plain {w : List Byte} {v : Int} (h : IsInt w v) : 10 ∉ w ∧ 0 ∉ w := by
  cases h with
  | plain _ hd => exact digits_plain hd
  | plus _ hd => have := digits_plain hd; simp only [List.mem_cons, not_or]; exact ⟨⟨by decide, this.1⟩, by decide, this.2⟩
  | minus _ hd => have := digits_plain hd; simp only [List.mem_cons, not_or]; exact ⟨⟨by decide, this.1⟩, by decide, this.2⟩

theorem scan_d (L : Lib) {m : Mode} {t : Ty} (ht : conv m t = [37, 100]) {w : List Byte} {v : Int} (hw : IsInt w v)
    (h1 : -2 ^ 31 ≤ v) (h2 : v < 2 ^ 31) (old : List Byte) : scan L (conv m t) w [old] 0 =
      (store (enc 4 v) old).bind fun b => .ok (1, [b]) := by
  obtain ⟨c, r, e, hc⟩ := isInt_visible hw
  have hs : skip w = w := by rw [e, skip_visible hc]
  have hne : w ≠ [] := by rw [e]; simp
  have hcv := convInt_word hw h1 h2 (s := []) (.inl rfl)
  rw [List.append_nil] at hcv
  rw [ht, scan, hs, convert, if_neg hne, hcv]
  simp only
  cases store (enc 4 v) old <;> simp [Res.bind, scan]

/-- C155 fails: reading into a `bool`, an `i16`, a `u16` or anything else of fewer than four bytes writes past the
end of the variable. -/
theorem narrow_violated (L : Lib) (m : Mode) (t : Ty) (ht : t = .bool ∨ ∃ n, t = .other n ∧ n < 4) {w : List Byte} {v : Int}
    (hw : IsInt w v) (h1 : -2 ^ 31 ≤ v) (h2 : v < 2 ^ 31) (hl : w.length < 2 ^ 60) (old rest : List Byte)
    (ho : old.length = t.size) : read L m [t] (w ++ 10 :: rest) [old] = .ub := by
  have hp := isInt_plain hw
  have hc : conv m t = [37, 100] := by
    rcases ht with h | ⟨n, h, _⟩ <;> subst h <;> cases m <;> rfl
  have hs : t.size < 4 := by
    rcases ht with h | ⟨n, h, hn⟩
    · subst h; decide
    · subst h; exact hn
  rw [read_one L m t old w rest hl hp.1 hp.2, scan_d L hc hw h1 h2]
  unfold store
  rw [if_neg (by rw [enc_length]; omega)]
  rfl

/-- C155 fails: reading into an `i64`, a `u64` or a `usize` changes the lower four bytes only. -/
theorem wide_violated (L : Lib) (m : Mode) {w : List Byte} {v : Int} (hw : IsInt w v) (h1 : -2 ^ 31 ≤ v) (h2 : v < 2 ^ 31)
    (hl : w.length < 2 ^ 60) (old rest : List Byte) (ho : old.length = 8) :
    read L m [.other 8] (w ++ 10 :: rest) [old] = .ok (1, [enc 4 v ++ old.drop 4], rest) := by
  have hp := isInt_plain hw
  rw [read_one L m _ old w rest hl hp.1 hp.2, scan_d L (by cases m <;> rfl) hw h1 h2]
  unfold store
  rw [if_pos (by rw [enc_length]; omega), enc_length]
  rfl

/-- the number 5 read into an `i64` that was -1 is not 5 -/
example : read noNumbers .call [.other 8] [53, 10] [List.replicate 8 255] =
    .ok (1, [[5, 0, 0, 0, 255, 255, 255, 255]], []) :=
  wide_violated noNumbers .call (w := [53]) (v := 5) (.plain (ds := [53]) (by decide) (by decide)) (by decide) (by decide)
    (by decide) _ [] rfl

/-- C155 fails: an `i8`, a `u8` or a `byte` gets the code of the first character, not the number. -/
theorem small_violated (L : Lib) (m : Mode) (t : Ty) (ht : t = .i8 ∨ t = .u8 ∨ t = .byte) (c : Byte) (more old rest : List Byte)
    (hc : 48 ≤ c ∧ c ≤ 57) (hm : ∀ x ∈ more, 48 ≤ x ∧ x ≤ 57) (hl : more.length < 2 ^ 59) (ho : old.length = 1) :
    read L m [t] (c :: more ++ 10 :: rest) [old] = .ok (1, [[c]], rest) := by
  have hall : ∀ x ∈ c :: more, 48 ≤ x ∧ x ≤ 57 := by
    intro x hx
    rcases List.mem_cons.1 hx with h | h
    · rw [h]; exact hc
    · exact hm x h
  have hp := digits_plain hall
  obtain ⟨_, _, e, hsp⟩ := isInt_visible (.plain (by simp) hall)
  have hcs : space c = false := by rw [(List.cons.inj e).1]; exact hsp
  have hcv : conv m t = [32, 37, 99] := by rcases ht with h | h | h <;> subst h <;> cases m <;> rfl
  rw [read_one L m t old (c :: more) rest (by rw [List.length_cons]; omega) hp.1 hp.2, hcv, scan, skip_visible hcs, scan,
    convert, if_neg (by simp), convChar]
  simp only [store_exact (show [c].length = old.length from ho.symm), Res.ok_bind, scan]
  rfl

/-- `7` read into a `u8` is 55 -/
example : read noNumbers .prompt [.u8] [55, 10] [[0]] = .ok (1, [[55]], []) :=
  small_violated noNumbers .prompt .u8 (.inr (.inl rfl)) 55 [] [0] [] (by decide) (by simp) (by decide) rfl

/-- C155 fails: `readln(s)` of a `string` writes the characters over the pointer itself; from eight characters on
past its end. -/
theorem text_violated (L : Lib) (w old rest : List Byte) (h0 : w ≠ []) (hv : ∀ c ∈ w, Visible c) (hz : 0 ∉ w)
    (hl : w.length < 2 ^ 60) (ho : old.length = 8) :
    read L .call [.string] (w ++ 10 :: rest) [old] =
      if w.length < 8 then .ok (1, [w ++ 0 :: old.drop (w.length + 1)], rest) else .ub := by
  have hn : 10 ∉ w := fun h => absurd (hv 10 h).2 (by decide)
  have hs : skip w = w := by
    obtain ⟨c, r, e⟩ := List.exists_cons_of_ne_nil h0
    rw [e, skip_visible (visible_space (hv c (by simp [e])))]
  have hcv := convWord_word (fun w => w ++ [0]) hv (s := []) (.inl rfl)
  rw [List.append_nil] at hcv
  rw [read_one L _ _ old w rest hl hn hz, conv, scan, hs, convert, if_neg h0, hcv]
  simp only [store, List.length_append, List.length_cons, List.length_nil]
  by_cases h : w.length < 8
  · rw [if_pos (by omega), if_pos h]
    simp only [Res.ok_bind, scan, List.append_assoc, Nat.zero_add, List.cons_append, List.nil_append]
    rfl
  · rw [if_neg (by omega), if_neg h]; rfl

/-- C154 fails: a zero byte in the line ends the text. -/
theorem zero_violated (l r rest : List Byte) (hl : (l ++ 0 :: r).length < 2 ^ 60) (hn : 10 ∉ l ++ 0 :: r) (h0 : 0 ∉ l) :
    ∃ b, readlnRaw (l ++ 0 :: r ++ 10 :: rest) = .ok (some b, rest) ∧ cstring b = l := by
  obtain ⟨b, h, x, hb⟩ := Io.readln_line _ rest hl hn
  refine ⟨b, h, ?_⟩
  rw [hb, List.map_append, List.map_cons, List.append_assoc, List.cons_append, cstring_line _ h0]

/-- C155: only one line is used; values on the next line are not looked at. -/
theorem second_line_violated (L : Lib) (m : Mode) (w : List Byte) (v : Int) (hw : IsInt w v) (h1 : -2 ^ 31 ≤ v)
    (h2 : v < 2 ^ 31) (hl : w.length < 2 ^ 60) (old old2 rest : List Byte) (ho : old.length = 4) :
    read L m [.int, .int] (w ++ 10 :: rest) [old, old2] = .ok (1, [enc 4 v, old2], rest) := by
  have hp := isInt_plain hw
  have := short_read L m [⟨.int, [], w, old, enc 4 v⟩] [.int] [old2] [] rest
    ⟨by intro i hi; rw [List.mem_singleton.1 hi]; exact ⟨.int hw h1 h2, by simp [Blank], ho⟩, by simp⟩ (by simp [Blank])
    (by simp) (by simp) (by simpa [text] using hl) (by simpa [text] using hp.1) (by simpa [text] using hp.2)
  simpa [text] using this

end Verif.Input
