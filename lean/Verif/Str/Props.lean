import Verif.Str.Lemmas

/-! # Properties of `std/string.zc` (C10–C13) -/

namespace Verif.Str
open Verif

/-! ## C10 / C11: histories of calls agree with byte sequences -/

/-- **C10, C11 (partial).** Any history of calls on any number of string variables (all starting
as `String::new("")`) returns what the same calls return on byte sequences, and panics exactly
when `substring` is asked for a range beyond the text.  Missing: appending a string to itself,
for which the claim is false (`append_self_violated`). -/
theorem string_refines_texts_partial (ops : List Op) (hg : Spec.Guard (fun _ => []) ops) :
    run (fun _ => empty) ops = Spec.run (fun _ => []) ops :=
  run_refines (fun _ => empty_text) ops hg

/-- Non-vacuity: a history using every kind of call meets the guard and has a real result. -/
example :
    let ops : List Op :=
      [.new 0 [104, 105], .appendC 0 [32], .new 1 [33, 0, 7], .append 0 1, .add 0 0 2, .text 2,
       .length 2, .trim 2 3, .eq 2 3, .eqStr 1 [33], .find 2 33, .contains 2 7, .startsWith 2 [104],
       .endsWith 2 [33], .reserve 2 100, .replace 2 [104, 105] [97] 4, .text 4, .substring 2 1 2 5,
       .text 5, .substring 2 7 2 5]
    Spec.Guard (fun _ => []) ops ∧
      run (fun _ => empty) (ops.take 19) =
        .ok [.unit, .unit, .unit, .unit, .unit, .bytes [104, 105, 32, 33, 104, 105, 32, 33], .nat 8,
          .unit, .bool true, .bool true, .optNat (some 3), .bool false, .bool true, .bool true, .unit,
          .unit, .bytes [97, 32, 33, 97, 32, 33], .unit, .bytes [105, 32]] ∧
      run (fun _ => empty) ops = .panic := by
  intro ops
  have hg : Spec.Guard (fun _ => []) ops := by decide +kernel
  have hg' : Spec.Guard (fun _ => []) (ops.take 19) := by decide +kernel
  refine ⟨hg, ?_, ?_⟩
  · rw [string_refines_texts_partial _ hg']; decide +kernel
  · rw [string_refines_texts_partial _ hg]; decide +kernel

/-- State after a history. -/
def exec (s : Nat → Str) : List Op → Res (Nat → Str)
  | [] => .ok s
  | op :: ops => do
      let (s, _) ← step s op
      exec s ops

/-- **C10 (partial).** After any such history every string variable owns a buffer of `cap` bytes
that starts with a text without zero byte, followed by the terminating zero byte, and `len` counts
both.  Missing: self-append. -/
theorem string_terminated_partial (ops : List Op) (hg : Spec.Guard (fun _ => []) ops)
    (s : Nat → Str) (h : exec (fun _ => empty) ops = .ok s) (i : Nat) :
    ∃ (t : List Byte) (rest : Mem Byte), 0 ∉ t ∧ (s i).buf = t.map some ++ some 0 :: rest ∧ (s i).len = t.length + 1 ∧
      (s i).cap = (s i).buf.length := by
  have key : ∀ (ops : List Op) (s0 : Nat → Str) (t0 : Nat → List Byte), TextAll s0 t0 →
      Spec.Guard t0 ops → exec s0 ops = .ok s → ∃ t, TextAll s t := by
    intro ops
    induction ops with
    | nil => intro s0 t0 h0 _ he; cases he; exact ⟨t0, h0⟩
    | cons op ops ih =>
      intro s0 t0 h0 hg he
      obtain ⟨g1, g2⟩ := Spec.guard_cons hg
      have hst := step_refines h0 op g1
      unfold exec at he
      cases hs : Spec.step t0 op with
      | none => rw [hs] at hst; simp only at hst; rw [hst] at he; cases he
      | some p =>
        obtain ⟨t', r⟩ := p
        rw [hs] at hst
        obtain ⟨s', hs', hh⟩ := hst
        rw [hs'] at he
        exact ih s' t' hh (g2 t' r hs) he
  obtain ⟨t, ht⟩ := key ops _ _ (fun _ => empty_text) hg h
  obtain ⟨⟨rest, hb, hl, hc⟩, h0⟩ := ht i
  exact ⟨t i, rest, h0, by rw [hb]; simp, by rw [hl]; simp, hc⟩

example : (match exec (fun _ => empty) [.new 0 [104, 105], .add 0 0 1] with
    | .ok s => (s 1).buf.take 5 | _ => []) = [some 104, some 105, some 104, some 105, some 0] := by
  decide +kernel

theorem appendSelfLoop_holds (n : Nat) : ∀ (i : Nat) (v : Str) (t : List Byte), i + n = t.length →
    Vec.Holds v (t ++ t.take i) → ∃ w, appendSelfLoop n i v = .ok w ∧ Vec.Holds w (t ++ t) := by
  induction n with
  | zero =>
    intro i v t hi hv
    rw [List.take_of_length_le (by omega)] at hv
    exact ⟨v, rfl, hv⟩
  | succ n ih =>
    intro i v t hi hv
    have hlt : i < t.length := by omega
    obtain ⟨w, hw, hh⟩ := Vec.push_holds hv t[i]
    have e : t ++ t.take i ++ [t[i]] = t ++ t.take (i + 1) := by
      rw [List.append_assoc, List.take_succ_eq_append_getElem hlt]
    rw [e] at hh
    obtain ⟨x, hx, hxh⟩ := ih (i + 1) w t (by omega) hh
    refine ⟨x, ?_, hxh⟩
    have hg := Vec.get_holds hv i
    rw [List.getElem?_append_left hlt, List.getElem?_eq_getElem hlt] at hg
    simp only [appendSelfLoop, hg, Res.ok_bind, hw, hx]

/-- **C10 is false for self-append.** For every non-empty text, `s.append(&s)` returns an object
whose counted bytes end in the text instead of a terminating zero byte, so `length()` reports
one byte too few. -/
theorem append_self_violated (s : Str) (t : List Byte) (h : Text s t) (hne : t ≠ []) :
    ∃ w, appendSelf s = .ok w ∧ w.len = 2 * t.length ∧ Mem.load w.buf (w.len - 1) ≠ .ok 0 ∧
      length w + 1 = 2 * t.length := by
  have hc := h.chop
  have hl := hc.choose_spec.2.1
  obtain ⟨w, hw, hh⟩ := appendSelfLoop_holds t.length 0 (chop s) t (by omega) (by simpa using hc)
  have hwl := hh.choose_spec.2.1
  have hpos : 0 < t.length := List.length_pos_iff.2 hne
  have hlen : w.len = 2 * t.length := by rw [hwl]; simp; omega
  refine ⟨w, by simp only [appendSelf, hl, hw], hlen, ?_, ?_⟩
  · have hlt : t.length - 1 < t.length := by omega
    have hget : (t ++ t)[w.len - 1]? = some t[t.length - 1] := by
      rw [List.getElem?_append_right (by omega),
        show w.len - 1 - t.length = t.length - 1 by omega, List.getElem?_eq_getElem hlt]
    rw [Vec.load_holds hh _ _ hget]
    intro he
    injection he with he
    exact h.2 (he ▸ List.getElem_mem hlt)
  · unfold length
    rw [if_neg (by omega), hlen]; omega

/-- The same in a history: reading the text afterwards runs into bytes never written. -/
theorem append_self_history_violated :
    run (fun _ => empty) [.new 0 [104, 105], .append 0 0, .length 0]
      = .ok [.unit, .unit, .nat 3] ∧
    Spec.run (fun _ => []) [.new 0 [104, 105], .append 0 0, .length 0]
      = .ok [.unit, .unit, .nat 4] ∧
    run (fun _ => empty) [.new 0 [104, 105], .append 0 0, .text 0] = .ub := by
  decide +kernel

/-! ## C11: what the byte-sequence operations mean -/

/-- **C11.** The result of `trim` is the middle part of the text between a leading and a trailing
run of blanks, and neither starts nor ends with a blank. -/
theorem trim_exact (s : Str) (t : List Byte) (h : Text s t) (hlt : t.length < 2 ^ 63) :
    ∃ w m a b, trim s = .ok w ∧ readC w.buf = .ok m ∧ t = a ++ m ++ b ∧
      (∀ c ∈ a ++ b, c = 32 ∨ c = 9 ∨ c = 10 ∨ c = 13) ∧
      (∀ c, m.head? = some c ∨ m.getLast? = some c → ¬ (c = 32 ∨ c = 9 ∨ c = 10 ∨ c = 13)) := by
  have hblank : ∀ c : Byte, blank c = true ↔ (c = 32 ∨ c = 9 ∨ c = 10 ∨ c = 13) := by
    intro c; simp [blank, or_assoc]
  obtain ⟨w, hw, ht⟩ := h.trim hlt
  have hd : ∀ (p : Byte → Bool) (l : List Byte) (c : Byte),
      (l.dropWhile p).head? = some c → p c = false := by
    intro p l c
    induction l with
    | nil => simp
    | cons x l ih =>
      rw [List.dropWhile_cons]
      split
      · exact ih
      · rename_i hx
        intro hh
        simp at hh
        subst hh
        simpa using hx
  generalize hX : t.dropWhile blank = X at *
  have h1 : t = t.takeWhile blank ++ X := by rw [← hX, List.takeWhile_append_dropWhile]
  have h2 : X = (X.reverse.dropWhile blank).reverse ++ (X.reverse.takeWhile blank).reverse := by
    rw [← List.reverse_append, List.takeWhile_append_dropWhile, List.reverse_reverse]
  have hm : Spec.trim t = (X.reverse.dropWhile blank).reverse := by unfold Spec.trim; rw [hX]
  refine ⟨w, Spec.trim t, t.takeWhile blank, (X.reverse.takeWhile blank).reverse, hw,
    ht.ctext.readC, ?_, ?_, ?_⟩
  · rw [hm, List.append_assoc, ← h2, ← h1]
  · intro c hc
    rw [List.mem_append, List.mem_reverse] at hc
    rw [← hblank]
    rcases hc with hc | hc
    · exact List.all_eq_true.1 List.all_takeWhile c hc
    · exact List.all_eq_true.1 List.all_takeWhile c hc
  · intro c hc
    rw [← hblank, Bool.not_eq_true]
    rcases hc with hc | hc
    · have : X.head? = some c := by
        rw [h2, ← hm]
        cases hT : Spec.trim t with
        | nil => rw [hT] at hc; cases hc
        | cons y ys => rw [hT] at hc; simpa using hc
      exact hd blank t c (by rw [hX]; exact this)
    · rw [hm, List.getLast?_reverse] at hc
      exact hd blank _ c hc

example : (match new (cmem [32, 9, 104, 32, 105, 10]) with
    | .ok s => (match trim s with | .ok w => readC w.buf | _ => .ub) | _ => .ub)
      = .ok [104, 32, 105] := by decide +kernel

/-- **C11.** `substring` returns the requested bytes or panics; no third outcome, for all 64-bit
arguments (the wrapping sum in the range check does not let a bad range through). -/
theorem substring_exact (s : Str) (t : List Byte) (h : Text s t) (hlt : t.length < 2 ^ 63)
    (a n : Nat) (ha : a < 2 ^ 64) (hn : n < 2 ^ 64) :
    (a + n ≤ t.length ∧ ∃ w, substring s a n = .ok w ∧ readC w.buf = .ok ((t.drop a).take n)) ∨
    (t.length < a + n ∧ substring s a n = .panic) := by
  by_cases hle : a + n ≤ t.length
  · obtain ⟨w, hw, ht⟩ := h.substring hlt hle
    exact .inl ⟨hle, w, hw, ht.ctext.readC⟩
  · exact .inr ⟨by omega, h.substring_panics hlt ha hn (by omega)⟩

/-- The wrapping case is reached: start 1, length 2^64 - 1 passes the range check and still
panics. -/
example : (1 + (2 ^ 64 - 1)) % 2 ^ 64 ≤ length empty ∧ substring empty 1 (2 ^ 64 - 1) = .panic :=
  ⟨by decide, (substring_exact empty [] empty_text (by decide) 1 (2 ^ 64 - 1) (by decide)
    (by decide)).elim (fun h => absurd h.1 (by decide)) (fun h => h.2)⟩

/-! ## C12: split and replace -/

/-- Joining pieces with a delimiter. -/
def Spec.join (d : Byte) : List (List Byte) → List Byte
  | [] => []
  | [p] => p
  | p :: q :: ps => p ++ d :: Spec.join d (q :: ps)

theorem Spec.join_snoc (d : Byte) (ts : List (List Byte)) (l : List Byte) :
    Spec.join d (ts ++ [l]) = (ts.map (· ++ [d])).flatten ++ l := by
  induction ts with
  | nil => simp [Spec.join]
  | cons p ts ih =>
    cases ts with
    | nil => simp [Spec.join]
    | cons q ts =>
      simp only [List.cons_append, Spec.join] at ih ⊢
      rw [ih]; simp

/-- **C12.** Splitting any text yields strings whose texts contain no delimiter and whose join
is the text; a non-empty text yields one piece more than it has delimiters. -/
theorem split_join (s : Str) (t : List Byte) (h : Text s t) (hlt : t.length < 2 ^ 63) (d : Byte) :
    ∃ ps ts, split s d = .ok ps ∧ Texts ps ts ∧ (∀ p ∈ ts, d ∉ p) ∧ Spec.join d ts = t ∧
      (t ≠ [] → ts.length = t.count d + 1) := by
  unfold split
  rw [h.length]
  by_cases ht : t = []
  · subst ht
    exact ⟨[], [], rfl, trivial, by simp, rfl, fun h => absurd rfl h⟩
  · have hpos : 0 < t.length := List.length_pos_iff.2 ht
    obtain ⟨st, ps, ts, hsl, hps, hst, hd, hts, hj⟩ :=
      splitLoop_texts h hlt d t.length 0 0 [] [] trivial (by omega) (by omega) (by simp) (by simp)
        (by simp)
    obtain ⟨w, hw, hwt⟩ := h.substring hlt (a := st) (n := t.length - st) (by omega)
    rw [List.take_of_length_le (by simp)] at hwt
    refine ⟨ps ++ [w], ts ++ [t.drop st], ?_, hps.snoc hwt, ?_, ?_, ?_⟩
    · simp only [show ¬ t.length = 0 by omega, if_false, hsl, Res.ok_bind, hst, if_true, hw]
    · intro p hp
      rw [List.mem_append, List.mem_singleton] at hp
      rcases hp with hp | hp
      · exact hts p hp
      · subst hp; exact hd
    · rw [Spec.join_snoc, ← hj]
    · intro _
      have hcnt : ∀ l : List (List Byte), (∀ p ∈ l, d ∉ p) →
          ((l.map (· ++ [d])).flatten).count d = l.length := by
        intro l
        induction l with
        | nil => intro _; rfl
        | cons p l ih =>
          intro hl
          have h1 : p.count d = 0 := List.count_eq_zero.2 (hl p (by simp))
          simp only [List.map_cons, List.flatten_cons, List.count_append, h1,
            ih (fun q hq => hl q (by simp [hq])), List.length_cons]
          simp; omega
      conv => rhs; rw [hj]
      rw [List.count_append, hcnt ts hts, List.count_eq_zero.2 hd]
      simp

example : (match new (cmem [97, 44, 44, 98]) with
    | .ok s => (match split s 44 with | .ok ps => ps.map (fun p => readC p.buf) | _ => []) | _ => [])
      = [.ok [97], .ok [], .ok [98]] := by decide +kernel

/-- **C12.** `replace` with a non-empty target yields the text obtained by rewriting the leftmost
non-overlapping occurrences and nothing else; that text is unique.  An empty target copies. -/
theorem replace_leftmost (s : Str) (t : List Byte) (h : Text s t) (hlt : t.length < 2 ^ 63)
    (target repl : List Byte) (h0 : 0 ∉ target) (h1 : 0 ∉ repl) :
    ∃ w t', replace s (cmem target) (cmem repl) = .ok w ∧ readC w.buf = .ok t' ∧
      (target = [] → t' = t) ∧
      (target ≠ [] → Spec.Replaced target repl t t' ∧
        ∀ t'', Spec.Replaced target repl t t'' → t'' = t') := by
  obtain ⟨w, hw, ht⟩ := h.replace (u := target) (r := repl) (m := cmem target) (p := cmem repl)
    ⟨h0, [], rfl⟩ ⟨h1, [], rfl⟩ hlt
  refine ⟨w, _, hw, ht.ctext.readC, ?_, ?_⟩
  · intro he; rw [if_pos he]
  · intro he
    rw [if_neg he]
    have := Spec.replace_replaced target repl he t.length t (Nat.le_refl _)
    exact ⟨this, fun t'' h'' => h''.unique he this⟩

example : (match new (cmem [97, 97, 97, 98]) with
    | .ok s => (match replace s (cmem [97, 97]) (cmem [99]) with | .ok w => readC w.buf | _ => .ub)
    | _ => .ub) = .ok [99, 97, 98] := by decide +kernel

/-! ## C13: UTF-8 -/

/-- **C13.** For a string holding the UTF-8 encoding of `cs`, the character count, indexing and
character substring are those of the sequence of code points. -/
theorem utf8_code_points (s : Str) (cs : List Char) (h : Text s (Spec.enc cs))
    (hlt : (Spec.enc cs).length < 2 ^ 63) :
    utf8Len s = .ok cs.length ∧
    (∀ i, ∃ w, utf8At s i = .ok w ∧ readC w.buf = .ok (Spec.enc (cs[i]?.toList))) ∧
    (∀ a n, ∃ w, utf8Substr s a n = .ok w ∧
      readC w.buf = .ok (Spec.enc ((cs.drop a).take n))) := by
  refine ⟨?_, ?_, ?_⟩
  · have := utf8LenLoop_eq cs h cs [] 0 rfl
    unfold utf8Len
    rw [h.length]
    simpa [show (Spec.enc []).length = 0 from rfl] using this
  · intro i
    obtain ⟨w, hw, ht⟩ := utf8AtLoop_eq cs h hlt i cs [] rfl (Nat.zero_le _)
    refine ⟨w, ?_, ht.ctext.readC⟩
    unfold utf8At
    rw [h.length]
    exact hw
  · intro a n
    unfold utf8Substr
    by_cases hn : n = 0
    · subst hn
      exact ⟨empty, by simpa using new_nil, by simpa [Spec.enc] using empty_text.ctext.readC⟩
    · rw [if_neg hn, h.length]
      have := utf8SubstrLoop_seek cs h a n (by omega) cs [] rfl (Nat.zero_le _)
      simp only [show (Spec.enc []).length = 0 from rfl, List.length_nil] at this
      rw [this]
      by_cases ha : a < cs.length
      · rw [if_pos ha]
        have hsplit : Spec.enc cs = Spec.enc (cs.take a) ++
            (Spec.enc ((cs.drop a).take n) ++ Spec.enc ((cs.drop a).drop n)) := by
          rw [← enc_append, List.take_append_drop, ← enc_append, List.take_append_drop]
        obtain ⟨w, hw, ht⟩ := h.substring hlt (a := (Spec.enc (cs.take a)).length)
          (n := (Spec.enc ((cs.drop a).take n)).length) (by
            have := congrArg List.length hsplit
            simp only [List.length_append] at this
            omega)
        refine ⟨w, by simpa using hw, ?_⟩
        rw [hsplit, List.drop_left, List.take_left] at ht
        exact ht.ctext.readC
      · rw [if_neg ha, List.drop_eq_nil_of_le (by omega)]
        exact ⟨empty, by simpa using new_nil, by simpa [Spec.enc] using empty_text.ctext.readC⟩

theorem encode_no_zero (c : Char) (hc : c ≠ '\x00') : 0 ∉ String.utf8EncodeChar c := by
  have hv : c.val.toNat ≠ 0 := by
    intro h
    apply hc
    apply Char.ext
    apply UInt32.toNat_inj.1
    simpa using h
  have ofNat_ne : ∀ n, 0 < n → n < 256 → (0 : UInt8) ≠ UInt8.ofNat n := by
    intro n h0 h1 he
    have := congrArg UInt8.toNat he
    simp at this
    omega
  unfold String.utf8EncodeChar
  dsimp only
  split
  · rename_i h
    simp only [List.mem_singleton]
    exact ofNat_ne _ (by omega) (by omega)
  · split
    · simp only [List.mem_cons, List.not_mem_nil, or_false, not_or]
      exact ⟨ofNat_ne _ (by omega) (by omega), ofNat_ne _ (by omega) (by omega)⟩
    · split
      · simp only [List.mem_cons, List.not_mem_nil, or_false, not_or]
        exact ⟨ofNat_ne _ (by omega) (by omega), ofNat_ne _ (by omega) (by omega),
          ofNat_ne _ (by omega) (by omega)⟩
      · simp only [List.mem_cons, List.not_mem_nil, or_false, not_or]
        exact ⟨ofNat_ne _ (by omega) (by omega), ofNat_ne _ (by omega) (by omega),
          ofNat_ne _ (by omega) (by omega), ofNat_ne _ (by omega) (by omega)⟩

/-- **C13.** Every sequence of code points other than U+0000 can be put into a string, so the
previous theorem applies to it. -/
theorem utf8_new (cs : List Char) (h0 : '\x00' ∉ cs) :
    ∃ s, new (cmem (Spec.enc cs)) = .ok s ∧ Text s (Spec.enc cs) := by
  have : 0 ∉ Spec.enc cs := by
    intro h
    unfold Spec.enc at h
    rw [List.mem_flatMap] at h
    obtain ⟨c, hc, hz⟩ := h
    exact encode_no_zero c (fun he => h0 (he ▸ hc)) hz
  exact (show CText (cmem (Spec.enc cs)) (Spec.enc cs) from ⟨this, [], rfl⟩).new

example : (match new (cmem (Spec.enc ['h', 'é', '€', '😀'])) with
    | .ok s => (utf8Len s, (match utf8At s 2 with | .ok w => readC w.buf | _ => .ub),
        (match utf8Substr s 1 9 with | .ok w => readC w.buf | _ => .ub))
    | _ => (.ub, .ub, .ub))
    = (.ok 4, .ok [0xe2, 0x82, 0xac],
        .ok [0xc3, 0xa9, 0xe2, 0x82, 0xac, 0xf0, 0x9f, 0x98, 0x80]) := by decide +kernel

end Verif.Str
