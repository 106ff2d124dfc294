import Verif.Input.Model
import Verif.Io.Props

/-!
# C154, C155: reading a line and scanning it into variables
-/

namespace Verif.Input
open Verif Verif.Str Verif.Input.Spec

/-! ## white space, words, numbers -/

theorem blank_space {c : Byte} (h : c = 32 ∨ c = 9 ∨ c = 13) : space c = true := by
  rcases h with h | h | h <;> subst h <;> decide

theorem visible_space {c : Byte} (h : Visible c) : space c = false := by
  unfold space
  have h1 : (c == 32) = false := by simpa using h.1
  rw [h1, Bool.false_or]
  by_cases h2 : 9 ≤ c
  · have h3 : ¬ c ≤ 13 := fun h3 => h.2 ⟨h2, h3⟩
    simp [h3]
  · simp [h2]

theorem skip_blank : ∀ {g : List Byte} (s : List Byte), Blank g → skip (g ++ s) = skip s
  | [], _, _ => rfl
  | c :: g, s, h => by
      rw [List.cons_append, skip, if_pos (blank_space (h c (by simp)))]
      exact skip_blank s fun x hx => h x (by simp [hx])

theorem skip_visible {c : Byte} {s : List Byte} (h : space c = false) : skip (c :: s) = c :: s := by
  rw [skip, h]; rfl

theorem skip_all {g : List Byte} (h : Blank g) : skip g = [] := by
  have := skip_blank (g := g) [] h
  rwa [List.append_nil] at this

/-- what follows a word: nothing or white space -/
def After (s : List Byte) : Prop := s = [] ∨ ∃ c r, s = c :: r ∧ space c = true

theorem takeWhile_word (p : Byte → Bool) : ∀ (w s : List Byte), (∀ c ∈ w, p c = true) →
    (s = [] ∨ ∃ c r, s = c :: r ∧ p c = false) → (w ++ s).takeWhile p = w ∧ (w ++ s).dropWhile p = s
  | [], s, _, h => by
      rcases h with h | ⟨c, r, h, h2⟩
      · subst h; exact ⟨rfl, rfl⟩
      · subst h; simp [h2]
  | c :: w, s, hw, h => by
      have hc := hw c (by simp)
      have := takeWhile_word p w s (fun x hx => hw x (by simp [hx])) h
      simp [hc, this.1, this.2]

theorem digit_of {c : Byte} (h : 48 ≤ c ∧ c ≤ 57) : digit c = true := by
  unfold digit; simp [h.1, h.2]

theorem digit_space {c : Byte} (h : space c = true) : digit c = false := by
  cases hd : digit c with
  | false => rfl
  | true =>
    exfalso
    unfold digit at hd; unfold space at h
    simp only [Bool.and_eq_true, decide_eq_true_eq, Bool.or_eq_true, beq_iff_eq] at hd h
    rcases h with h | h
    · subst h; exact absurd hd.1 (by decide)
    · have h1 := UInt8.le_iff_toNat_le.1 hd.1
      have h2 := UInt8.le_iff_toNat_le.1 h.2
      have h3 : (48 : UInt8).toNat = 48 := rfl
      have h4 : (13 : UInt8).toNat = 13 := rfl
      omega

theorem after_digit {s : List Byte} (h : After s) : s = [] ∨ ∃ c r, s = c :: r ∧ digit c = false := by
  rcases h with h | ⟨c, r, h, h2⟩
  · exact .inl h
  · exact .inr ⟨c, r, h, digit_space h2⟩

theorem convDigits_word (neg : Bool) {ds s : List Byte} (h0 : ds ≠ []) (hd : ∀ c ∈ ds, 48 ≤ c ∧ c ≤ 57) (hs : After s)
    (v : Int) (hv : v = if neg then - (value ds : Int) else value ds) (h1 : -2 ^ 31 ≤ v) (h2 : v < 2 ^ 31) :
    convDigits neg (ds ++ s) = .got (enc 4 v) s := by
  have := takeWhile_word digit ds s (fun c hc => digit_of (hd c hc)) (after_digit hs)
  unfold convDigits
  simp only [this.1, this.2, if_neg h0, ← hv]
  rw [if_pos ⟨h1, h2⟩]

theorem convInt_plain {c : Byte} {s : List Byte} (h : 48 ≤ c ∧ c ≤ 57) : convInt (c :: s) = convDigits false (c :: s) := by
  unfold convInt
  split
  · rename_i h2; rw [(List.cons.inj h2).1] at h; exact absurd h.1 (by decide)
  · rename_i h2; rw [(List.cons.inj h2).1] at h; exact absurd h.1 (by decide)
  · rfl

theorem convInt_word {w : List Byte} {v : Int} (hw : IsInt w v) (h1 : -2 ^ 31 ≤ v) (h2 : v < 2 ^ 31) {s : List Byte}
    (hs : After s) : convInt (w ++ s) = .got (enc 4 v) s := by
  cases hw with
  | plain h0 hd =>
      obtain ⟨c, w', hw'⟩ := List.exists_cons_of_ne_nil h0
      have e : convInt (w ++ s) = convDigits false (w ++ s) := by
        rw [hw', List.cons_append, convInt_plain (hd c (by simp [hw']))]
      rw [e]
      exact convDigits_word false h0 hd hs _ (by simp) h1 h2
  | plus h0 hd => exact convDigits_word false h0 hd hs _ (by simp) h1 h2
  | minus h0 hd => exact convDigits_word true h0 hd hs _ (by simp) h1 h2

theorem isInt_visible {w : List Byte} {v : Int} (hw : IsInt w v) : ∃ c r, w = c :: r ∧ space c = false := by
  have key : ∀ c : Byte, 48 ≤ c ∧ c ≤ 57 → space c = false := by
    intro c h
    cases hs : space c with
    | false => rfl
    | true => exact absurd (digit_of h) (by simp [digit_space hs])
  cases hw with
  | plain h0 hd =>
      match w, h0, hd with
      | c :: w, h0, hd => exact ⟨c, w, rfl, key c (hd c (by simp))⟩
  | plus h0 hd => exact ⟨43, _, rfl, by decide⟩
  | minus h0 hd => exact ⟨45, _, rfl, by decide⟩

theorem convWord_word (f : List Byte → List Byte) {w s : List Byte} (hw : ∀ c ∈ w, Visible c) (hs : After s) :
    convWord f (w ++ s) = .got (f w) s := by
  have := takeWhile_word (fun c => !space c) w s (fun c hc => by simp [visible_space (hw c hc)])
    (by rcases hs with h | ⟨c, r, h, h2⟩
        · exact .inl h
        · exact .inr ⟨c, r, h, by simp [h2]⟩)
  unfold convWord
  rw [this.1, this.2]

/-! ## one variable -/

theorem denotes_visible {L : Lib} {m : Mode} {t : Ty} {w b : List Byte} (h : Denotes L m t w b) :
    ∃ c r, w = c :: r ∧ space c = false := by
  cases h with
  | int h _ _ => exact isInt_visible h
  | i32 h _ _ => exact isInt_visible h
  | f64 h => exact L.starts _ h
  | f32 h => exact L.starts _ h
  | float h => exact L.starts _ h
  | char h => exact ⟨_, [], rfl, visible_space h⟩
  | string h0 h =>
      match w, h0, h with
      | c :: w, _, h => exact ⟨c, w, rfl, visible_space (h c (by simp))⟩

theorem enc_length : ∀ (n : Nat) (v : Int), (enc n v).length = n
  | 0, _ => rfl
  | n + 1, v => by rw [enc, List.length_cons, enc_length n]

theorem denotes_size {L : Lib} {m : Mode} {t : Ty} {w b : List Byte} (h : Denotes L m t w b) : b.length = t.size := by
  cases h with
  | int h _ _ => exact enc_length _ _
  | i32 h _ _ => exact enc_length _ _
  | f64 h => exact L.double_size _
  | f32 h => exact L.single_size _
  | float h => exact L.single_size _
  | char h => rfl
  | string h0 h => exact L.address_size _

theorem store_exact {b old : List Byte} (h : b.length = old.length) : store b old = .ok b := by
  unfold store
  rw [if_pos (by omega), h, List.drop_length, List.append_nil]

theorem convert_got {c : List Byte → Conv} {s b rest old : List Byte} {vs : List (List Byte)} {n : Nat}
    {next : List Byte → List (List Byte) → Nat → Res (Int × List (List Byte))} {k : Int} {out : List (List Byte)}
    (h0 : s ≠ []) (hc : c s = .got b rest) (hb : b.length = old.length) (hn : next rest vs (n + 1) = .ok (k, out)) :
    convert c s (old :: vs) n next = .ok (k, b :: out) := by
  unfold convert
  rw [if_neg h0, hc]
  simp only [store_exact hb, Res.ok_bind, hn]

/-- One conversion stores the value of the word and goes on behind it. -/
theorem conv_step (L : Lib) {m : Mode} {t : Ty} {g w b old rest : List Byte} {f : List Byte} {vs : List (List Byte)}
    {n : Nat} {k : Int} {out : List (List Byte)} (h : Denotes L m t w b) (hg : Blank g) (ho : old.length = t.size)
    (hr : After rest) (hn : scan L f rest vs (n + 1) = .ok (k, out)) :
    scan L (conv m t ++ f) (g ++ w ++ rest) (old :: vs) n = .ok (k, b :: out) := by
  have hb : b.length = old.length := by rw [denotes_size h, ho]
  obtain ⟨c, r, hw, hc⟩ := denotes_visible h
  have hs : skip (g ++ w ++ rest) = w ++ rest := by
    rw [List.append_assoc, skip_blank _ hg, hw, List.cons_append, skip_visible hc]
  have h0 : w ++ rest ≠ [] := by rw [hw]; simp
  cases h with
  | int h h1 h2 =>
      show scan L (37 :: 100 :: f) _ _ _ = _
      rw [scan, hs]
      exact convert_got h0 (convInt_word h h1 h2 hr) hb hn
  | i32 h h1 h2 =>
      show scan L (37 :: 100 :: f) _ _ _ = _
      rw [scan, hs]
      exact convert_got h0 (convInt_word h h1 h2 hr) hb hn
  | f64 h =>
      show scan L (37 :: 108 :: 102 :: f) _ _ _ = _
      rw [scan, hs]
      exact convert_got h0 (by unfold convNumber; rw [L.ends w rest h hr]) hb hn
  | f32 h =>
      show scan L (37 :: 102 :: f) _ _ _ = _
      rw [scan, hs]
      exact convert_got h0 (by unfold convNumber; rw [L.ends w rest h hr]) hb hn
  | float h =>
      show scan L (37 :: 102 :: f) _ _ _ = _
      rw [scan, hs]
      exact convert_got h0 (by unfold convNumber; rw [L.ends w rest h hr]) hb hn
  | char h =>
      show scan L (32 :: 37 :: 99 :: f) _ _ _ = _
      rw [scan, hs, scan]
      exact convert_got h0 rfl hb hn
  | string hw0 h =>
      show scan L (37 :: 109 :: 115 :: f) _ _ _ = _
      rw [scan, hs]
      exact convert_got h0 (convWord_word _ h hr) hb hn

/-! ## all variables -/

theorem format_cons (m : Mode) (t u : Ty) (ts : List Ty) :
    format m (t :: u :: ts) = conv m t ++ 32 :: format m (u :: ts) := by rw [format]; simp

theorem text_cons (i : Item) (is : List Item) : text (i :: is) = i.gap ++ i.word ++ text is := by simp [text]

/-- A space of the format before a conversion changes nothing. -/
theorem scan_space_gap (L : Lib) (m : Mode) (t : Ty) (f s : List Byte) (vars : List (List Byte)) (n : Nat)
    : scan L (32 :: (conv m t ++ f)) s vars n = scan L (conv m t ++ f) s vars n := by
  have hss : ∀ s, skip (skip s) = skip s := by
    intro s
    induction s with
    | nil => rfl
    | cons c s ih =>
        by_cases h : space c = true
        · rw [skip, if_pos h, ih]
        · rw [skip, if_neg h, skip, if_neg h]
  rw [scan]
  cases m <;> cases t <;> simp only [conv, List.cons_append, List.nil_append] <;> first
    | (rw [scan, scan, hss]; done)
    | (rw [scan, hss]; conv => rhs; rw [scan])

theorem scan_end (L : Lib) (m : Mode) (t : Ty) (f : List Byte) {s : List Byte} (hs : Blank s) (vars : List (List Byte))
    (n : Nat) : scan L (conv m t ++ f) s vars n = .ok (if n = 0 then -1 else n, vars) := by
  have h := skip_all hs
  cases m <;> cases t <;> simp only [conv, List.cons_append, List.nil_append] <;> first
    | (rw [scan, h, convert, if_pos rfl]; done)
    | (rw [scan, h, scan, convert, if_pos rfl])

theorem format_head (m : Mode) (t : Ty) : ∀ ts : List Ty, ∃ f, format m (t :: ts) = conv m t ++ f
  | [] => ⟨[], by rw [format, List.append_nil]⟩
  | _ :: _ => ⟨_, format_cons _ _ _ _⟩

theorem after_text {L : Lib} {m : Mode} {items : List Item} {trail : List Byte} (hf : ∀ i ∈ items, Denotes L m i.ty i.word i.new ∧ Blank i.gap ∧ i.old.length = i.ty.size)
    (hg : ∀ i ∈ items, i.gap ≠ []) (ht : Blank trail) : After (text items ++ trail) := by
  cases items with
  | nil =>
      rw [show text [] = [] from rfl, List.nil_append]
      cases trail with
      | nil => exact .inl rfl
      | cons c r => exact .inr ⟨c, r, rfl, blank_space (ht c (by simp))⟩
  | cons i is =>
      have h1 := (hf i (by simp)).2.1
      have h2 := hg i (by simp)
      rw [text_cons]
      cases hgap : i.gap with
      | nil => exact absurd hgap h2
      | cons c r =>
          refine .inr ⟨c, _, rfl, blank_space (h1 c ?_)⟩
          rw [hgap]; simp

theorem scan_items (L : Lib) (m : Mode) : ∀ (items : List Item) (more : List Ty) (vars : List (List Byte)) (trail : List Byte)
    (n : Nat), Fits L m items → Blank trail →
    scan L (format m (items.map (·.ty) ++ more)) (text items ++ trail) (items.map (·.old) ++ vars) n =
      .ok (if more = [] ∨ n + items.length ≠ 0 then ((n + items.length : Nat) : Int) else -1, items.map (·.new) ++ vars)
  | [], more, vars, trail, n, _, ht => by
      rw [show text [] = [] from rfl]
      simp only [List.map_nil, List.nil_append, List.length_nil, Nat.add_zero]
      cases more with
      | nil => rw [format, scan]; simp
      | cons t ts =>
          obtain ⟨f, hf⟩ := format_head m t ts
          rw [hf, scan_end L m t f ht]
          by_cases h : n = 0
          · simp [h]
          · simp [h]
  | i :: is, more, vars, trail, n, hf, ht => by
      obtain ⟨hd, hg, ho⟩ := hf.1 i (by simp)
      have hfs : Fits L m is := ⟨fun j hj => hf.1 j (by simp [hj]), fun j hj => hf.2 j (by
        rw [List.tail_cons]; exact List.mem_of_mem_tail hj)⟩
      have hafter : After (text is ++ trail) := after_text (fun j hj => hf.1 j (by simp [hj])) (fun j hj => hf.2 j hj) ht
      have ih := scan_items L m is more vars trail (n + 1) hfs ht
      have hcnt : (if more = [] ∨ n + 1 + is.length ≠ 0 then ((n + 1 + is.length : Nat) : Int) else -1) =
          if more = [] ∨ n + (i :: is).length ≠ 0 then ((n + (i :: is).length : Nat) : Int) else -1 := by
        rw [List.length_cons, show n + 1 + is.length = n + (is.length + 1) by omega]
      rw [hcnt] at ih
      rw [text_cons, List.append_assoc]
      simp only [List.map_cons, List.cons_append]
      cases hts : is.map (·.ty) ++ more with
      | nil =>
          rw [hts] at ih
          rw [format]
          have := conv_step (f := []) L hd hg ho hafter ih
          rwa [List.append_nil] at this
      | cons u us =>
          rw [hts] at ih
          rw [format_cons]
          refine conv_step L hd hg ho hafter ?_
          obtain ⟨f, hfm⟩ := format_head m u us
          rw [hfm, scan_space_gap, ← hfm]
          exact ih

/-! ## the helpers -/

theorem cstring_line : ∀ {l : List Byte} (r : Mem Byte), 0 ∉ l → cstring (l.map some ++ some 0 :: r) = l
  | [], _, _ => rfl
  | c :: l, r, h => by
      simp only [List.mem_cons, not_or] at h
      rw [List.map_cons, List.cons_append, cstring, if_neg (Ne.symm h.1), cstring_line r h.2]

theorem conv_length (m : Mode) (t : Ty) : (conv m t).length ≤ 3 := by cases m <;> cases t <;> simp [conv]

theorem format_length (m : Mode) : ∀ ts : List Ty, (format m ts).length ≤ 4 * ts.length
  | [] => by rw [format]; simp
  | [t] => by rw [format]; have := conv_length m t; simp only [List.length_cons, List.length_nil]; omega
  | t :: u :: ts => by
      rw [format_cons, List.length_append, List.length_cons]
      have := conv_length m t
      have := format_length m (u :: ts)
      simp only [List.length_cons] at *
      omega

/-- C155: up to sixteen variables fit into the arrays of the compiler. -/
theorem arguments_fit (m : Mode) (ts : List Ty) (h : ts.length ≤ 16) : parseArgs m ts = .ok (format m ts) := by
  unfold parseArgs
  have := format_length m ts
  rw [if_neg (by omega), if_neg (by omega)]

/-- C155 fails: a seventeenth variable is written past the end of an array of the compiler. -/
theorem many_violated (L : Lib) (m : Mode) (ts : List Ty) (h : 16 < ts.length) (input : List Byte) (vars : List (List Byte)) :
    read L m ts input vars = .ub := by
  unfold read parseArgs
  rw [if_pos h]; rfl

/-- C154: `readln()` returns the line without its newline, of any length, and leaves what follows. -/
theorem line_read (l r : List Byte) (hl : l.length < 2 ^ 60) (hn : 10 ∉ l) (h0 : 0 ∉ l) :
    ∃ b, readlnRaw (l ++ 10 :: r) = .ok (some b, r) ∧ cstring b = l := by
  obtain ⟨b, h, rest, hb⟩ := Io.readln_line l r hl hn
  exact ⟨b, h, by rw [hb, cstring_line rest h0]⟩

/-- C154: the last line need not end with a newline. -/
theorem last_read (l : List Byte) (hl : l.length < 2 ^ 60) (hn : 10 ∉ l) (h0 : 0 ∉ l) (hne : l ≠ []) :
    ∃ b, readlnRaw l = .ok (some b, []) ∧ cstring b = l := by
  obtain ⟨b, h, rest, hb⟩ := Io.readln_last l hl hn hne
  exact ⟨b, h, by rw [hb, cstring_line rest h0]⟩

/-- C154: at the end of the input the result is NULL. -/
theorem end_read : readlnRaw [] = .ok (none, []) := Io.readln_end

/-- C155: every variable gets the value of its word, the result is the number of the variables, and the next line
is next. -/
theorem values_read (L : Lib) (m : Mode) (items : List Item) (trail rest : List Byte) (hf : Fits L m items) (ht : Blank trail)
    (h16 : items.length ≤ 16) (hl : (text items ++ trail).length < 2 ^ 60) (hn : 10 ∉ text items ++ trail)
    (h0 : 0 ∉ text items ++ trail) :
    read L m (items.map (·.ty)) (text items ++ trail ++ 10 :: rest) (items.map (·.old)) =
      .ok (items.length, items.map (·.new), rest) := by
  unfold read
  rw [arguments_fit m _ (by simpa using h16), Res.ok_bind]
  obtain ⟨b, h, hb⟩ := line_read _ rest hl hn h0
  unfold scanHelper
  rw [h, Res.ok_bind]
  have := scan_items L m items [] [] trail 0 hf ht
  simp only [List.append_nil, true_or, if_true, Nat.zero_add] at this
  simp only [hb, this, Res.ok_bind]

/-- C155: if the line has words for the first variables only, these get their values, the others keep theirs,
and the result is the number of the words. -/
theorem short_read (L : Lib) (m : Mode) (items : List Item) (more : List Ty) (vars : List (List Byte)) (trail rest : List Byte)
    (hf : Fits L m items) (ht : Blank trail) (h16 : items.length + more.length ≤ 16) (hi : items ≠ [])
    (hl : (text items ++ trail).length < 2 ^ 60) (hn : 10 ∉ text items ++ trail) (h0 : 0 ∉ text items ++ trail) :
    read L m (items.map (·.ty) ++ more) (text items ++ trail ++ 10 :: rest) (items.map (·.old) ++ vars) =
      .ok (items.length, items.map (·.new) ++ vars, rest) := by
  unfold read
  rw [arguments_fit m _ (by simpa using h16), Res.ok_bind]
  obtain ⟨b, h, hb⟩ := line_read _ rest hl hn h0
  unfold scanHelper
  rw [h, Res.ok_bind]
  have := scan_items L m items more vars trail 0 hf ht
  have hne : items.length ≠ 0 := fun h => hi (List.length_eq_zero_iff.1 h)
  rw [if_pos (.inr (by omega)), Nat.zero_add] at this
  simp only [hb, this, Res.ok_bind]

/-- C155: at the end of the input no variable is changed and the result is 0. -/
theorem nothing_read (L : Lib) (m : Mode) (ts : List Ty) (h16 : ts.length ≤ 16) (vars : List (List Byte)) :
    read L m ts [] vars = .ok (0, vars, []) := by
  unfold read
  rw [arguments_fit m _ h16, Res.ok_bind]
  unfold scanHelper
  rw [end_read]; rfl

/-- C155 fails: for a blank line the result is -1, not the number of the values (0). -/
theorem blank_violated (L : Lib) (m : Mode) (t : Ty) (ts : List Ty) (vars : List (List Byte)) (line rest : List Byte)
    (h16 : ts.length < 16) (ht : Blank line) (hl : line.length < 2 ^ 60) :
    read L m (t :: ts) (line ++ 10 :: rest) vars = .ok (-1, vars, rest) := by
  unfold read
  rw [arguments_fit m _ (by rw [List.length_cons]; omega), Res.ok_bind]
  obtain ⟨b, h, hb⟩ := line_read line rest hl (fun h => by rcases ht 10 h with h | h | h <;> exact absurd h (by decide))
    (fun h => by rcases ht 0 h with h | h | h <;> exact absurd h (by decide))
  unfold scanHelper
  rw [h, Res.ok_bind]
  have := scan_items L m [] (t :: ts) vars line 0 ⟨by simp, by simp⟩ ht
  simp only [List.map_nil, List.nil_append, show text [] = [] from rfl, List.length_nil] at this
  rw [if_neg (by simp)] at this
  simp only [hb, this, Res.ok_bind]

/-! ## the bytes of an integer are its value -/

/-- C155: the bytes that are stored are those of the integer. -/
theorem enc_value : ∀ (n : Nat) (v : Int), ((enc n v).foldr (fun b k => (b.toNat : Int) + 256 * k) 0) = v % 256 ^ n
  | 0, v => by simp [enc, Int.emod_one]
  | n + 1, v => by
      rw [enc, List.foldr_cons, enc_value n]
      have h1 : 0 ≤ v % 256 := Int.emod_nonneg _ (by decide)
      have h2 : v % 256 < 256 := Int.emod_lt_of_pos _ (by decide)
      have h3 : (UInt8.ofNat (v % 256).toNat).toNat = (v % 256).toNat := by
        rw [UInt8.toNat_ofNat']; exact Nat.mod_eq_of_lt (by omega)
      rw [h3, Int.toNat_of_nonneg h1, Int.pow_succ, Int.mul_comm (256 ^ n) 256]
      rw [Int.emod_def v (256 * 256 ^ n), Int.emod_def (v / 256) (256 ^ n), Int.emod_def v 256,
        ← Int.ediv_ediv_of_nonneg (by decide)]
      generalize v / 256 / 256 ^ n = q
      rw [Int.mul_sub, Int.mul_assoc]; omega

/-- C155: the text a program prints for an integer is read back as this integer. -/
theorem printed_read (v : Int) : IsInt (Io.decimal v) v := by
  have hd : ∀ k : Fin 10, 48 ≤ UInt8.ofNat (48 + k.val) ∧ UInt8.ofNat (48 + k.val) ≤ 57 := by decide
  have hr : ∀ n : Nat, Io.digits n ≠ [] ∧ ∀ c ∈ Io.digits n, 48 ≤ c ∧ c ≤ 57 := by
    intro n
    fun_induction Io.digits n with
    | case1 n h => exact ⟨by simp, fun c hc => by rw [List.mem_singleton.1 hc]; exact hd ⟨n, h⟩⟩
    | case2 n h ih =>
        refine ⟨by simp, fun c hc => ?_⟩
        rcases List.mem_append.1 hc with hc | hc
        · exact ih.2 c hc
        · rw [List.mem_singleton.1 hc]; exact hd ⟨n % 10, by omega⟩
  have hv : value (Io.digits v.natAbs) = v.natAbs := (Io.digits_value v.natAbs).1
  unfold Io.decimal
  by_cases h : v < 0
  · rw [if_pos h]
    have := IsInt.minus (hr v.natAbs).1 (hr v.natAbs).2
    rw [hv] at this
    rwa [show -(v.natAbs : Int) = v by omega] at this
  · rw [if_neg h]
    have := IsInt.plain (hr v.natAbs).1 (hr v.natAbs).2
    rw [hv] at this
    rwa [show (v.natAbs : Int) = v by omega] at this

/-! ## a case -/

/-- a library for the examples: no floating point numbers -/
def noNumbers : Lib where
  number _ := none
  IsNumber _ := False
  ends _ _ h := h.elim
  starts _ h := h.elim
  double _ := List.replicate 8 0
  double_size _ := rfl
  single _ := List.replicate 4 0
  single_size _ := rfl
  address _ := [1, 2, 3, 4, 5, 6, 7, 8]
  address_size _ := rfl

/-- `? "..." (age, initial, name)` with the line `42  x Bo` -/
example : read noNumbers .prompt [.int, .char, .string] [52, 50, 32, 32, 120, 32, 66, 111, 10, 55]
    [[9, 9, 9, 9], [0], [0, 0, 0, 0, 0, 0, 0, 0]] = .ok (3, [[42, 0, 0, 0], [120], [1, 2, 3, 4, 5, 6, 7, 8]], [55]) := by
  refine values_read noNumbers .prompt
    [⟨.int, [], [52, 50], [9, 9, 9, 9], [42, 0, 0, 0]⟩, ⟨.char, [32, 32], [120], [0], [120]⟩,
     ⟨.string, [32], [66, 111], [0, 0, 0, 0, 0, 0, 0, 0], [1, 2, 3, 4, 5, 6, 7, 8]⟩] [] [55] ⟨?_, ?_⟩ (by simp [Blank])
    (by decide) (by decide) (by decide) (by decide)
  · intro i hi
    simp only [List.mem_cons, List.not_mem_nil, or_false] at hi
    rcases hi with h | h | h <;> subst h
    · exact ⟨.int (v := 42) (.plain (ds := [52, 50]) (by decide) (by decide)) (by decide) (by decide), by simp [Blank], rfl⟩
    · exact ⟨.char (by unfold Visible; decide), by simp [Blank], rfl⟩
    · exact ⟨.string (by decide) (by unfold Visible; decide), by simp [Blank], rfl⟩
  · simp

end Verif.Input
